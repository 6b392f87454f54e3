import Verif.Props.GraphConfig

/-!
# Erdős–Rényi graphs for maximum cut (C112)

`maxcut/er.py` declares the sizes of three data sets of a thousand graphs; a batch takes 128 of them.
-/

namespace Discs

/-- The three ranges of sizes that `maxcut/er.py` knows, with their declared number of edges. -/
def erRanges : List (String × ℕ × ℕ) := [("256-300", 300, 6839), ("512-600", 600, 27132), ("1024-1100", 1100, 91239)]

theorem er_config {cfgStr r : List Char} (hr : cfgRand cfgStr = some r) {p : String × ℕ × ℕ} (hp : p ∈ erRanges)
    (hs : p.1.toList.isSuffixOf r) :
    graphConfig "maxcut".toList "er".toList cfgStr =
      some ⟨none, 128, p.2.1, p.2.2, some 1000, 2, r, none, none⟩ := by
  have hdis : ∀ a b : String, (a, b) ∈ [("256-300", "512-600"), ("256-300", "1024-1100"), ("512-600", "1024-1100")] →
      a.toList.isSuffixOf r → ¬ b.toList.isSuffixOf r := by
    intro a b hab h1 h2
    rw [List.isSuffixOf_iff_suffix] at h1 h2
    rcases List.suffix_or_suffix_of_suffix h1 h2 with h | h <;>
      (simp only [List.mem_cons, List.not_mem_nil, or_false, Prod.mk.injEq] at hab
       rcases hab with ⟨rfl, rfl⟩ | ⟨rfl, rfl⟩ | ⟨rfl, rfl⟩ <;> exact absurd h (by decide))
  have hne : ¬ "er".toList = "ba".toList := by decide
  simp only [graphConfig, if_true, if_neg hne, cfgEr, hr, Option.bind_eq_bind, Option.bind_some, sizesBySuffix]
  simp only [erRanges, List.mem_cons, List.not_mem_nil, or_false] at hp
  rcases hp with rfl | rfl | rfl
  · rw [if_neg (hdis "256-300" "1024-1100" (by simp) hs), if_neg (hdis "256-300" "512-600" (by simp) hs), if_pos hs]
  · rw [if_neg (hdis "512-600" "1024-1100" (by simp) hs), if_pos hs]
  · rw [if_pos hs]

/-- **C112 (Erdős–Rényi graphs).** A data set of at most a thousand graphs of one of the three ranges, none with more
edges than declared, is handed out in eight batches of 128, every graph once, with its own index. -/
theorem er_run {cfgStr r : List Char} (hr : cfgRand cfgStr = some r) {p : String × ℕ × ℕ} (hp : p ∈ erRanges)
    (hs : p.1.toList.isSuffixOf r) {gs : List (ℕ × ℕ)} (hlen : gs.length ≤ 1000) (he : ∀ g ∈ gs, g.2 ≤ p.2.2) :
    ∃ d, graphRun "maxcut".toList "er".toList cfgStr gs = some d ∧ d.maxNodes = p.2.1 ∧ d.maxEdges = p.2.2 ∧
      d.batches.length = 8 ∧ (∀ b ∈ d.batches, b.length = 128) ∧
      d.batches.flatten = indexed gs ++ List.replicate (1024 - gs.length) ((-1 : ℤ), (2, 1)) := by
  have hc := er_config hr hp hs
  have hpos : 0 < p.2.1 ∧ 0 < p.2.2 := by
    simp only [erRanges, List.mem_cons, List.not_mem_nil, or_false] at hp
    rcases hp with rfl | rfl | rfl <;> simp
  obtain ⟨l, hl, hsz⟩ := declared_sizes (n := 1000) hc (by decide) hpos.1 hpos.2 rfl (by decide) gs
  obtain ⟨d, h1, -, h2, h3, h4, h5, k, h6⟩ := graphRun_ok hc hl hsz (by decide) hlen he hpos.2
  have h4 : d.batches.length = 8 := by
    rw [h4]
    show (1000 + 128 - 1) / 128 = 8
    norm_num
  refine ⟨d, h1, h2, h3, h4, h5, ?_⟩
  have hk : k = 1024 - gs.length := by
    have hs : d.batches.flatten.length = 8 * 128 := by
      rw [List.length_flatten, List.map_congr_left (g := fun _ => 128) h5, List.map_const', List.sum_replicate, h4]
      rfl
    rw [h6, List.length_append, List.length_replicate] at hs
    have hi : (indexed gs).length = gs.length := by simp [indexed]
    omega
  rw [h6, hk]

/-- **C112 (Erdős–Rényi graphs, the declared number of edges).** Data sets with at most `b` edges per graph all start
exactly if `b` is at most the declared number. -/
theorem er_run_iff {cfgStr r : List Char} (hr : cfgRand cfgStr = some r) {p : String × ℕ × ℕ} (hp : p ∈ erRanges)
    (hs : p.1.toList.isSuffixOf r) (b : ℕ) :
    (∀ gs : List (ℕ × ℕ), gs.length ≤ 1000 → (∀ g ∈ gs, g.2 ≤ b) →
      (graphRun "maxcut".toList "er".toList cfgStr gs).isSome) ↔ b ≤ p.2.2 := by
  constructor
  · intro h
    by_contra hb
    have hc := er_config hr hp hs
    have hpos : 0 < p.2.1 ∧ 0 < p.2.2 := by
      simp only [erRanges, List.mem_cons, List.not_mem_nil, or_false] at hp
      rcases hp with rfl | rfl | rfl <;> simp
    have h' := h [(2, b)] (by simp) (by simp)
    obtain ⟨l, hl, hsz⟩ := declared_sizes (n := 1000) hc (by decide) hpos.1 hpos.2 rfl (by decide) [(2, b)]
    obtain ⟨-, l', hl', hpr, -⟩ := graphConfig_loader hc
    obtain rfl : l' = l := Option.some.inj (hl'.symm.trans hl)
    have hne : l'.problem ≠ "normcut".toList := by rw [hpr]; decide
    obtain ⟨bs, h1, h2, h3, k, h4⟩ := graph_batches (P := 1) (p := 0) (B := 128) one_pos (by norm_num)
      ((2, 1) : ℕ × ℕ) [(2, b)] (show [(2, b)].length ≤ 1000 by simp)
    rw [one_mul] at h1
    rw [share_one] at h4
    simp only [graphRun, getDatagen, hc, hl, hsz, Option.bind_eq_bind, Option.bind_some, dummy_of_ne hne, h1] at h'
    split_ifs at h' with hst
    · have hx : ((0 : ℤ), ((2, b) : ℕ × ℕ)) ∈ bs.flatten := by rw [h4]; simp [indexed]
      obtain ⟨bt, hbt, hxb⟩ := List.mem_flatten.1 hx
      have hlen := h3 bt hbt
      have hcount : bt.count ((0 : ℤ), ((2, b) : ℕ × ℕ)) ≤ 1 := by
        have hle : bt.count ((0 : ℤ), ((2, b) : ℕ × ℕ)) ≤ bs.flatten.count ((0 : ℤ), ((2, b) : ℕ × ℕ)) :=
          (List.sublist_flatten_of_mem hbt).count_le _
        rw [h4] at hle
        simpa [indexed, List.count_replicate] using hle
      obtain ⟨y, hy, hyx⟩ : ∃ y ∈ bt, y ≠ ((0 : ℤ), ((2, b) : ℕ × ℕ)) := by
        by_contra hno
        push Not at hno
        have := List.count_eq_length.2 fun y hy => (hno y hy).symm
        omega
      have hyd : y = ((-1 : ℤ), ((2, 1) : ℕ × ℕ)) := by
        have : y ∈ bs.flatten := List.mem_flatten.2 ⟨bt, hbt, hy⟩
        rw [h4] at this
        simp only [indexed, List.mem_append, List.mem_replicate] at this
        rcases this with h | h
        · simp at h; exact absurd h hyx
        · exact h.2
      have hst := List.all_eq_true.1 hst bt hbt
      unfold GraphLoader.stacks at hst
      rw [decide_eq_true_iff] at hst
      have := hst (2, b) (List.mem_map.2 ⟨_, hxb, rfl⟩) (2, 1) (List.mem_map.2 ⟨y, hy, by rw [hyd]⟩)
      rw [arrayLens_of_ne hne, arrayLens_of_ne hne, paddedLen_max, paddedLen_max, List.cons.injEq] at this
      simp only at this
      omega
    · simp at h'
  · intro hb gs hlen he
    obtain ⟨d, hd, -⟩ := er_run hr hp hs hlen fun g hg => (he g hg).trans hb
    rw [hd]; rfl

/-- The hypotheses: the configuration string of the shipped sweep. -/
example : cfgRand "r-er-0.15-n-256-300".toList = some "er-0.15-n-256-300".toList ∧
    ("256-300", 300, 6839) ∈ erRanges ∧ "256-300".toList.isSuffixOf "er-0.15-n-256-300".toList := by decide

end Discs
