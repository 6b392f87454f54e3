import Verif.Model.Bars
import Mathlib.Tactic.FieldSimp
import Mathlib.Tactic.Ring

/-!
# C97: bars stand at their ticks; C98: bars have the heights of the saved results
-/

namespace Discs

/-! ### C97 -/

/-- **C97 (order).**  Without pictures among the folders, every folder is plotted once, with its own value, in the
order of the values. -/
theorem sortFolders_spec {F V : Type*} [LinearOrder V] (isPic : F → Bool) (val : F → V) (folders : List F)
    (h : ∀ f ∈ folders, isPic f = false) :
    ((sortFolders isPic val folders).map Prod.fst).Perm folders ∧
      (∀ p ∈ sortFolders isPic val folders, p.2 = val p.1) ∧
      (sortFolders isPic val folders).Pairwise fun p q => p.2 ≤ q.2 := by
  have hf : (folders.filter fun f => !isPic f) = folders :=
    List.filter_eq_self.2 fun f hf => by rw [h f hf]; rfl
  have hz : folders.zip (folders.map val) = folders.map fun f => (f, val f) := by
    clear h hf
    induction folders with
    | nil => rfl
    | cons f l ih => simp [ih]
  unfold sortFolders
  rw [hf]
  dsimp only
  rw [hz]
  have hp := List.mergeSort_perm (folders.map fun f => (f, val f)) fun a b => decide (a.2 ≤ b.2)
  refine ⟨?_, fun p hp' => ?_, ?_⟩
  · refine (hp.map Prod.fst).trans ?_
    rw [List.map_map]
    exact List.Perm.of_eq (List.map_id _)
  · obtain ⟨f, -, rfl⟩ := List.mem_map.1 (hp.mem_iff.1 hp')
    rfl
  · refine (List.pairwise_mergeSort (fun a b c => ?_) (fun a b => ?_) _).imp fun hab => ?_
    · simp only [decide_eq_true_eq]
      exact le_trans
    · simp only [Bool.or_eq_true, decide_eq_true_eq]
      exact le_total _ _
    · simpa using hab

/-- **C97 (order, refuted with pictures).**  With `p` pictures among the folders the last `p` folders are not
plotted, whatever they are. -/
theorem sortFolders_lost {F V : Type*} [LinearOrder V] (isPic : F → Bool) (val : F → V) (folders : List F) :
    ((sortFolders isPic val folders).map Prod.fst).Perm
      (folders.take (folders.length - (folders.filter isPic).length)) := by
  have hlen : (folders.filter fun f => !isPic f).length = folders.length - (folders.filter isPic).length := by
    induction folders with
    | nil => rfl
    | cons f l ih =>
      have h1 := List.length_filter_le isPic l
      cases h : isPic f <;> (simp [h, ih]; try omega)
  unfold sortFolders
  dsimp only
  refine ((List.mergeSort_perm _ _).map Prod.fst).trans (List.Perm.of_eq ?_)
  rw [← hlen]
  clear hlen
  generalize folders.filter (fun f => !isPic f) = l
  induction folders generalizing l with
  | nil => simp
  | cons f fs ih =>
    cases l with
    | nil => simp
    | cons g gs => simpa using ih gs

namespace Spec

/-- The right heights for a sampler with results for the ticks `e`: the result of tick `k` at position `k`, nothing
where there is no result. -/
def wanted {R : Type*} [Zero R] (n : ℕ) (e : List ℕ) (v : ℕ → R) : List R :=
  (List.range n).map fun k => if k ∈ e then v k else 0

end Spec

/-- **C97 (heights).**  If results are not zero and the ticks for which a sampler has results are in order (as they
are by `sortFolders_spec`), the bars are right if and only if results are missing at the end only. -/
theorem padBars_iff {R : Type*} [Zero R] (n : ℕ) (e : List ℕ) (v : ℕ → R) (hv : ∀ k, v k ≠ 0)
    (he : e.Pairwise (· < ·)) (hn : ∀ k ∈ e, k < n) :
    padBars n (e.map v) = Spec.wanted n e v ↔ e = List.range e.length := by
  have hle : e.length ≤ n := by
    have hnd : e.Nodup := he.imp fun h => ne_of_lt h
    have := hnd.subperm (l₂ := List.range n) fun k hk => List.mem_range.2 (hn k hk)
    simpa using this.length_le
  constructor
  · intro h
    have hmem : ∀ k, k ∈ e ↔ k < e.length := by
      intro k
      by_cases hk : k < n
      · have hk' : (padBars n (e.map v))[k]? = (Spec.wanted n e v)[k]? := by rw [h]
        simp only [padBars, Spec.wanted, List.getElem?_map, List.getElem?_range hk, Option.map_some] at hk'
        by_cases hlt : k < e.length
        · rw [List.getElem?_append_left (by simpa using hlt)] at hk'
          simp only [List.getElem?_map, List.getElem?_eq_getElem hlt, Option.map_some, Option.some.injEq] at hk'
          refine ⟨fun _ => hlt, fun _ => ?_⟩
          by_contra hne
          rw [if_neg hne] at hk'
          exact hv _ hk'
        · rw [List.getElem?_append_right (by simpa using hlt), List.length_map, List.getElem?_replicate,
            if_pos (by omega), Option.some.injEq] at hk'
          refine ⟨fun hmem => ?_, fun h' => absurd h' hlt⟩
          rw [if_pos hmem] at hk'
          exact absurd hk'.symm (hv k)
      · exact ⟨fun hm => absurd (hn k hm) hk, fun h' => absurd (lt_of_lt_of_le h' hle) hk⟩
    refine List.Perm.eq_of_pairwise (le := (· < ·)) (fun a b _ _ h1 h2 => absurd (lt_trans h1 h2) (lt_irrefl _)) he
      List.pairwise_lt_range ?_
    rw [List.perm_ext_iff_of_nodup (he.imp fun h => ne_of_lt h) List.nodup_range]
    intro k
    rw [hmem, List.mem_range]
  · intro h
    rw [Spec.wanted, padBars, List.length_map]
    obtain ⟨m, hm⟩ := Nat.exists_eq_add_of_le hle
    rw [hm, List.range_add, List.map_append, Nat.add_sub_cancel_left]
    congr 1
    · rw [h, List.length_range]
      refine List.map_congr_left fun k hk => ?_
      rw [if_pos hk]
    · symm
      rw [List.map_map, List.eq_replicate_iff]
      refine ⟨by simp, fun x hx => ?_⟩
      obtain ⟨k, -, rfl⟩ := List.mem_map.1 hx
      rw [Function.comp_apply, if_neg]
      rw [h, List.length_range, List.mem_range]
      omega

/-- **C97 (figure).**  A figure is drawn only if the first sampler has a result for every tick and no sampler has
more; then every sampler's bars are its results padded with zeros. -/
theorem barHeights_some {R : Type*} [Zero R] (ticks : ℕ) (r : List R) (rows out : List (List R)) :
    barHeights ticks (r :: rows) = some out ↔
      r.length = ticks ∧ (∀ r' ∈ rows, r'.length ≤ ticks) ∧ out = (r :: rows).map (padBars ticks) := by
  unfold barHeights
  dsimp only
  split_ifs with h1 h2
  · simp [h1]
  · obtain ⟨r', hr', hlt⟩ := List.any_eq_true.1 h2
    simp only [decide_eq_true_eq] at hlt
    simp only [false_iff, not_and]
    exact fun _ h => absurd (h r' hr') (not_le.2 hlt)
  · simp only [Option.some.injEq]
    rw [Bool.not_eq_true, List.any_eq_false] at h2
    simp only [decide_eq_true_eq, not_lt] at h2
    constructor
    · rintro rfl
      exact ⟨by simpa using h1, h2, rfl⟩
    · rintro ⟨-, -, rfl⟩
      rfl

/-- The second of three experiments of a sampler failed: the result for the third tick is drawn at the second. -/
example : padBars 3 ([0, 2].map fun k => 10 * (k + 1)) = [10, 30, 0] ∧
    Spec.wanted 3 [0, 2] (fun k => 10 * (k + 1)) = [10, 0, 30] := by decide

/-! ### C98 -/

private theorem dropWhile_spaces (n : ℕ) {s : List Char} (h : ∀ c ∈ s.head?, c ≠ ' ') :
    (spaces n ++ s).dropWhile (· == ' ') = s := by
  induction n with
  | zero =>
    cases s with
    | nil => rfl
    | cons c s =>
      have := h c rfl
      simp [spaces, this]
  | succ n ih => simpa [spaces, List.replicate_succ] using ih

private theorem strip_pad (i k : ℕ) {s : List Char} (hs : s ≠ []) (h1 : ∀ c ∈ s.head?, c ≠ ' ')
    (h2 : ∀ c ∈ s.getLast?, c ≠ ' ') : stripSpaces (spaces i ++ s ++ spaces k) = s := by
  unfold stripSpaces
  rw [List.append_assoc, dropWhile_spaces i, List.reverse_append]
  · rw [show (spaces k).reverse = spaces k by simp [spaces], dropWhile_spaces k, List.reverse_reverse]
    intro c hc
    exact h2 c (by simpa using hc)
  · intro c hc
    cases s with
    | nil => exact absurd rfl hs
    | cons a s => exact h1 c (by simpa using hc)

private theorem idxOf_space {a r : List Char} (ha : ' ' ∉ a) : (a ++ ' ' :: r).idxOf? ' ' = some a.length := by
  induction a with
  | nil => simp [List.idxOf?_cons]
  | cons c a ih =>
    have hc : c ≠ ' ' := fun e => ha (by simp [e])
    rw [List.cons_append, List.idxOf?_cons, if_neg (by simpa using hc), ih (fun h => ha (by simp [h]))]
    rfl

private theorem no_head {a : List Char} (ha : ' ' ∉ a) : ∀ c ∈ a.head?, c ≠ ' ' := by
  rintro c hc rfl
  exact ha (List.mem_of_mem_head? hc)

private theorem no_last {a : List Char} (ha : ' ' ∉ a) : ∀ c ∈ a.getLast?, c ≠ ' ' := by
  rintro c hc rfl
  exact ha (List.mem_of_mem_getLast? hc)

private theorem extract_core (i j k : ℕ) {a b : List Char} (ha0 : a ≠ []) (hb0 : b ≠ []) (ha : ' ' ∉ a) (hb : ' ' ∉ b)
    (p q p' q' : Char) :
    extractFloats (p :: q :: (spaces i ++ a ++ spaces (j + 1) ++ b ++ spaces k) ++ [p', q']) = (a, b) := by
  unfold extractFloats
  have e1 : ((p :: q :: (spaces i ++ a ++ spaces (j + 1) ++ b ++ spaces k) ++ [p', q']).drop 2).dropLast.dropLast
      = spaces i ++ (a ++ ' ' :: (spaces j ++ b)) ++ spaces k := by
    have : (p :: q :: (spaces i ++ a ++ spaces (j + 1) ++ b ++ spaces k) ++ [p', q']).drop 2
        = (spaces i ++ a ++ spaces (j + 1) ++ b ++ spaces k ++ [p']) ++ [q'] := by simp
    rw [this, List.dropLast_concat, List.dropLast_concat]
    simp [spaces, List.replicate_succ]
  rw [e1]
  have e2 : stripSpaces (spaces i ++ (a ++ ' ' :: (spaces j ++ b)) ++ spaces k) = a ++ ' ' :: (spaces j ++ b) := by
    refine strip_pad i k (by simp) (fun c hc => ?_) (fun c hc => ?_)
    · cases a with
      | nil => exact absurd rfl ha0
      | cons x a => exact no_head ha c (by simpa using hc)
    · refine no_last hb c ?_
      rw [show a ++ ' ' :: (spaces j ++ b) = (a ++ ' ' :: spaces j) ++ b by simp, List.getLast?_append] at hc
      rw [List.getLast?_eq_some_getLast hb0] at hc ⊢
      simpa using hc
  dsimp only
  rw [e2, idxOf_space ha]
  dsimp only
  rw [List.take_left, show a.length + 1 = (a ++ [' ']).length by simp,
    show a ++ ' ' :: (spaces j ++ b) = (a ++ [' ']) ++ (spaces j ++ b) by simp, List.drop_left]
  have h3 := strip_pad 0 0 ha0 (no_head ha) (no_last ha)
  have h4 := strip_pad j 0 hb0 (no_head hb) (no_last hb)
  simp only [spaces, List.replicate_zero, List.nil_append, List.append_nil] at h3 h4 ⊢
  rw [h3, h4]

/-- **C98 (parallel runs).**  Mean and deviation of a parallel run are read back as they were written. -/
theorem extract_parallel (i j k : ℕ) {mean std : List Char} (hm0 : mean ≠ []) (hs0 : std ≠ []) (hm : ' ' ∉ mean)
    (hs : ' ' ∉ std) : extractFloats (printPair true i j k mean std) = (mean, std) :=
  extract_core i j k hm0 hs0 hm hs _ _ _ _

/-- **C98 (other runs, refuted).**  For runs without `run_parallel` the first character of the mean and the last
character of the deviation are cut off, silently. -/
theorem extract_single (j : ℕ) {mean std : List Char} (hm0 : 2 ≤ mean.length) (hs0 : 2 ≤ std.length) (hm : ' ' ∉ mean)
    (hs : ' ' ∉ std) : extractFloats (printPair false 0 j 0 mean std) = (mean.tail, std.dropLast) := by
  obtain ⟨x, m, rfl⟩ : ∃ x m, mean = x :: m := by
    cases mean with
    | nil => simp at hm0
    | cons x m => exact ⟨x, m, rfl⟩
  have hne : std ≠ [] := by rintro rfl; simp at hs0
  have hstd := (List.dropLast_append_getLast hne).symm
  have hm1 : m ≠ [] := by rintro rfl; simp at hm0
  have hs1 : std.dropLast ≠ [] := by
    intro h
    have := congrArg List.length h
    simp at this
    omega
  have hcore := extract_core 0 j 0 hm1 hs1 (fun h => hm (by simp [h])) (fun h => hs (List.mem_of_mem_dropLast h))
    '[' x (std.getLast hne) ']'
  rw [List.tail_cons, ← hcore]
  congr 1
  unfold printPair
  conv_lhs => rw [hstd]
  simp [spaces]

/-- 12.5 ± 0.25 effective samples per second are plotted as 2.5 ± 0.2. -/
example : extractFloats (printPair false 0 0 0 "12.5".toList "0.25".toList) = ("2.5".toList, "0.2".toList) := by decide

/-- **C98 (height).**  With half of an even chain recorded and the chain length in the folder name, the bar is the
number of effective samples per energy evaluation, counted on the whole chain. -/
theorem barEE_value (ess : ℝ) (calls L : ℕ) (hc : 0 < calls) (hL : 2 ∣ L) :
    barEE (essOverCalls (1 / 2) ess calls) (some L) = ess * L / calls := by
  obtain ⟨m, rfl⟩ := hL
  have hc' : (calls : ℝ) ≠ 0 := by exact_mod_cast hc.ne'
  rw [barEE, essOverCalls, Nat.mul_div_cancel_left _ two_pos]
  push_cast
  field_simp

/-- **C98 (height without a chain length in the folder name, refuted).**  The bar is the same only for chains of
100000 or 100001 steps. -/
theorem barEE_default (e : ℝ) (he : e ≠ 0) (L : ℕ) : barEE e none = barEE e (some L) ↔ L = 100000 ∨ L = 100001 := by
  unfold barEE
  dsimp only
  rw [mul_right_inj' he]
  have : (50000 : ℝ) = ((L / 2 : ℕ) : ℝ) ↔ 50000 = L / 2 := by exact_mod_cast Iff.rfl
  rw [this]
  omega

end Discs
