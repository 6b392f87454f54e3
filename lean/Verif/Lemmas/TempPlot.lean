import Verif.Model.TempPlot
import Verif.Props.PlotClusters

/-!
# Lemmas for the temperature plot
-/

namespace Discs

/-! ### Clusters of a list of blocks -/

/-- Consecutive ranges of the lengths of the blocks. -/
def blockRanges {A : Type*} : ℕ → List (List A) → List (List ℕ)
  | _, [] => []
  | o, b :: bs => List.range' o b.length :: blockRanges (o + b.length) bs

theorem range'_map_getD {A : Type*} (d : A) (pre b post : List A) :
    (List.range' pre.length b.length).map (fun i => (pre ++ b ++ post).getD i d) = b := by
  refine List.ext_getElem (by simp) fun k h1 h2 => ?_
  simp only [List.getElem_map, List.getElem_range']
  rw [List.append_assoc, List.getD_eq_getElem?_getD, List.getElem?_append_right (by omega)]
  rw [List.getElem?_append_left (by omega)]
  have : pre.length + 1 * k - pre.length = k := by omega
  rw [this, List.getElem?_eq_getElem (by omega)]
  rfl

theorem clusterInsert_new {key : List Char} {ds : List ExpDict} {i : ℕ} {cs : List (List ℕ)}
    (h : ∀ c ∈ cs, diffKey key (ds.getD (c.headD 0) []) (ds.getD i []) = false) :
    clusterInsert key ds i cs = cs ++ [[i]] := by
  induction cs with
  | nil => rfl
  | cons c cs ih =>
    rw [clusterInsert, h c List.mem_cons_self, ih fun c' hc' => h c' (List.mem_cons_of_mem _ hc')]
    simp

theorem clusterInsert_last {key : List Char} {ds : List ExpDict} {i : ℕ} {cs : List (List ℕ)} {l : List ℕ}
    (h : ∀ c ∈ cs, diffKey key (ds.getD (c.headD 0) []) (ds.getD i []) = false)
    (hl : diffKey key (ds.getD (l.headD 0) []) (ds.getD i []) = true) :
    clusterInsert key ds i (cs ++ [l]) = cs ++ [l ++ [i]] := by
  induction cs with
  | nil => rw [List.nil_append, clusterInsert, hl]; rfl
  | cons c cs ih =>
    rw [List.cons_append, clusterInsert, h c List.mem_cons_self, ih fun c' hc' => h c' (List.mem_cons_of_mem _ hc')]
    simp

/-- The steps of the clustering. -/
def clusterStep (key : List Char) (ds : List ExpDict) (cs : List (List ℕ)) (i : ℕ) : List (List ℕ) :=
  if (dictGet (ds.getD i []) key).isNone then cs else clusterInsert key ds i cs

theorem cluster_block {key : List Char} {ds : List ExpDict} {o : ℕ} {cs : List (List ℕ)} :
    ∀ m, (∀ j ≤ m, (dictGet (ds.getD (o + j) []) key).isSome) →
      (∀ j ≤ m, ∀ c ∈ cs, diffKey key (ds.getD (c.headD 0) []) (ds.getD (o + j) []) = false) →
      (∀ j ≤ m, diffKey key (ds.getD o []) (ds.getD (o + j) []) = true) →
      (List.range' o (m + 1)).foldl (clusterStep key ds) cs = cs ++ [List.range' o (m + 1)] := by
  intro m
  induction m with
  | zero =>
    intro h1 h2 _
    have := h1 0 le_rfl
    simp only [Nat.add_zero] at this
    simp only [Nat.zero_add, List.range'_one, List.foldl_cons, List.foldl_nil, clusterStep, Option.isNone_iff_eq_none]
    rw [if_neg (by intro e; rw [e] at this; exact absurd this (by simp))]
    exact clusterInsert_new fun c hc => by simpa using h2 0 le_rfl c hc
  | succ m ih =>
    intro h1 h2 h3
    rw [List.range'_concat, List.foldl_append, ih (fun j hj => h1 j (by omega)) (fun j hj => h2 j (by omega))
      (fun j hj => h3 j (by omega))]
    simp only [List.foldl_cons, List.foldl_nil, clusterStep, Option.isNone_iff_eq_none, Nat.one_mul]
    have := h1 (m + 1) le_rfl
    rw [if_neg (by intro e; rw [e] at this; exact absurd this (by simp))]
    refine clusterInsert_last (fun c hc => h2 (m + 1) le_rfl c hc) ?_
    have : (List.range' o (m + 1)).headD 0 = o := by simp [List.range'_succ]
    rw [this]
    exact h3 (m + 1) le_rfl

/-- Blocks of experiments: the clusters are the blocks. -/
theorem clusters_blocks {key : List Char} (bs : List (List ExpDict))
    (hne : ∀ b ∈ bs, b ≠ [])
    (hkey : ∀ b ∈ bs, ∀ d ∈ b, (dictGet d key).isSome)
    (hsame : ∀ b ∈ bs, ∀ d ∈ b, ∀ d' ∈ b, diffKey key d d' = true)
    (hdiff : bs.Pairwise fun b b' => ∀ d ∈ b, ∀ d' ∈ b', diffKey key d d' = false) :
    clustersBy key bs.flatten = blockRanges 0 bs := by
  suffices h : ∀ (bs pre : List (List ExpDict)), (∀ b ∈ pre ++ bs, b ≠ []) →
      (∀ b ∈ pre ++ bs, ∀ d ∈ b, (dictGet d key).isSome) →
      (∀ b ∈ pre ++ bs, ∀ d ∈ b, ∀ d' ∈ b, diffKey key d d' = true) →
      ((pre ++ bs).Pairwise fun b b' => ∀ d ∈ b, ∀ d' ∈ b', diffKey key d d' = false) →
      ∀ cs : List (List ℕ), (∀ c ∈ cs, ∃ b ∈ pre, (pre ++ bs).flatten.getD (c.headD 0) [] ∈ b) →
      (List.range' pre.flatten.length bs.flatten.length).foldl (clusterStep key (pre ++ bs).flatten) cs
        = cs ++ blockRanges pre.flatten.length bs by
    have := h bs [] (by simpa using hne) (by simpa using hkey) (by simpa using hsame) (by simpa using hdiff) []
      (by simp)
    simp only [List.nil_append, List.flatten_nil, List.length_nil] at this
    rw [← this, clustersBy, ← List.range_eq_range']
    rfl
  intro bs
  induction bs with
  | nil => intro pre _ _ _ _ cs _; simp [blockRanges]
  | cons b bs ih =>
    intro pre hne hkey hsame hdiff cs hcs
    have hb : b ∈ pre ++ b :: bs := by simp
    obtain ⟨m, hm⟩ : ∃ m, b.length = m + 1 := ⟨b.length - 1, by have := List.length_pos_iff.2 (hne b hb); omega⟩
    have hfl : (pre ++ b :: bs).flatten = pre.flatten ++ b ++ bs.flatten := by simp
    have hget : ∀ j ≤ m, (pre ++ b :: bs).flatten.getD (pre.flatten.length + j) [] ∈ b := by
      intro j hj
      have := range'_map_getD ([] : ExpDict) pre.flatten b bs.flatten
      rw [hfl]
      have h2 : (pre.flatten ++ b ++ bs.flatten).getD (pre.flatten.length + j) []
          ∈ (List.range' pre.flatten.length b.length).map fun i => (pre.flatten ++ b ++ bs.flatten).getD i [] :=
        List.mem_map_of_mem (List.mem_range'_1.2 ⟨by omega, by omega⟩)
      rwa [this] at h2
    have hfirst : (pre ++ b :: bs).flatten.getD pre.flatten.length [] ∈ b := by simpa using hget 0 (by omega)
    have hpp := List.pairwise_append.1 hdiff
    have hstep := cluster_block (key := key) (ds := (pre ++ b :: bs).flatten) (o := pre.flatten.length) (cs := cs) m
      (fun j hj => hkey b hb _ (hget j hj))
      (fun j hj c hc => by
        obtain ⟨b', hb', hm'⟩ := hcs c hc
        exact hpp.2.2 b' hb' b (by simp) _ hm' _ (hget j hj))
      (fun j hj => hsame b hb _ hfirst _ (hget j hj))
    have hrange : List.range' pre.flatten.length (b :: bs).flatten.length
        = List.range' pre.flatten.length b.length
          ++ List.range' (pre ++ [b]).flatten.length bs.flatten.length := by
      simp
    rw [hrange, List.foldl_append, hm, hstep]
    have e : pre ++ b :: bs = (pre ++ [b]) ++ bs := by simp
    have := ih (pre ++ [b]) (by rw [← e]; exact hne) (by rw [← e]; exact hkey) (by rw [← e]; exact hsame)
      (by rw [← e]; exact hdiff) (cs ++ [List.range' pre.flatten.length (m + 1)]) (by
        intro c hc
        rw [← e]
        rcases List.mem_append.1 hc with hc | hc
        · obtain ⟨b', hb', hm'⟩ := hcs c hc
          exact ⟨b', by simp [hb'], hm'⟩
        · rw [List.mem_singleton.1 hc]
          refine ⟨b, by simp, ?_⟩
          simpa [List.range'_succ] using hfirst)
    rw [← e] at this
    rw [this, blockRanges, hm]
    simp [hm]

/-- A function of the positions of a block, over all blocks. -/
theorem mapM_blockRanges {A B : Type*} (d : A) (f : List ℕ → Option B) (g : List A → Option B) :
    ∀ (bs : List (List A)) (pre : List A),
      (∀ (o : ℕ) (b : List A), b ∈ bs →
        (List.range' o b.length).map (fun i => (pre ++ bs.flatten).getD i d) = b →
          f (List.range' o b.length) = g b) →
      (blockRanges pre.length bs).mapM f = bs.mapM g := by
  intro bs
  induction bs with
  | nil => intro pre _; rfl
  | cons b bs ih =>
    intro pre h
    have e : pre ++ (b :: bs).flatten = (pre ++ b) ++ bs.flatten := by simp
    rw [blockRanges, List.mapM_cons, List.mapM_cons, h pre.length b (by simp)
      (by rw [e]; exact range'_map_getD d pre b bs.flatten)]
    have := ih (pre ++ b) (by
      intro o b' hb'
      rw [← e]
      exact h o b' (List.mem_cons_of_mem _ hb'))
    rw [List.length_append] at this
    rw [this]

/-! ### Tables of distinct names -/

/-- The row of one experiment that is alone in its row. -/
def soloRow (r : List (List Char × ℝ)) : List (List Char × List ℝ) := r.map fun kv => (kv.1, [kv.2])

theorem dictGet_of_mem {K V : Type*} [DecidableEq K] {d : List (K × V)} (hnd : (d.map Prod.fst).Nodup) {k : K} {v : V}
    (h : (k, v) ∈ d) : dictGet d k = some v := by
  induction d with
  | nil => simp at h
  | cons p d ih =>
    rw [List.map_cons, List.nodup_cons] at hnd
    unfold dictGet at ih ⊢
    rcases List.mem_cons.1 h with rfl | h
    · simp
    · have : p.1 ≠ k := fun e => hnd.1 (e ▸ List.mem_map_of_mem (f := Prod.fst) h)
      rw [List.find?_cons_of_neg (by simpa using this)]
      exact ih hnd.2 h

theorem dictGet_mem {K V : Type*} [DecidableEq K] {d : List (K × V)} {k : K} {v : V} (h : dictGet d k = some v) :
    (k, v) ∈ d := by
  unfold dictGet at h
  obtain ⟨p, hp, rfl⟩ := Option.map_eq_some_iff.1 h
  have := List.find?_some (p := fun p : K × V => decide (p.1 = k)) hp
  rw [← of_decide_eq_true this]
  exact List.mem_of_find?_eq_some hp

theorem dictGet_perm {K V : Type*} [DecidableEq K] {d e : List (K × V)} (h : d.Perm e) (hnd : (d.map Prod.fst).Nodup)
    (k : K) : dictGet d k = dictGet e k := by
  have hnd' : (e.map Prod.fst).Nodup := (h.map _).nodup_iff.1 hnd
  cases hd : dictGet d k with
  | some v => exact (dictGet_of_mem hnd' (h.mem_iff.1 (dictGet_mem hd))).symm
  | none =>
    cases he : dictGet e k with
    | none => rfl
    | some v => rw [dictGet_of_mem hnd (h.mem_iff.2 (dictGet_mem he))] at hd; cases hd

theorem dictSet_new {K V : Type*} [DecidableEq K] {d : List (K × V)} {k : K} (h : k ∉ d.map Prod.fst) (v : V) :
    dictSet d k v = d ++ [(k, v)] := by
  unfold dictSet
  refine if_neg ?_
  intro hany
  obtain ⟨p, hp, hk⟩ := List.any_eq_true.1 hany
  exact h (of_decide_eq_true hk ▸ List.mem_map_of_mem hp)

/-- Experiments of distinct names: every row holds the values of its own experiment. -/
theorem organizeCluster_solo (cl : List (List Char × List (List Char × ℝ)))
    (hn : (cl.map Prod.fst).Nodup) (hc : ∀ e ∈ cl, (e.2.map Prod.fst).Nodup) :
    organizeCluster cl = some (cl.map fun e => (e.1, soloRow e.2)) := by
  unfold organizeCluster
  suffices h : ∀ (cl : List (List Char × List (List Char × ℝ))) (t : ResTable ℝ),
      (cl.map Prod.fst).Nodup → (∀ e ∈ cl, (e.2.map Prod.fst).Nodup) → (∀ e ∈ cl, e.1 ∉ t.map Prod.fst) →
      cl.foldlM (fun t e => tableAdd t e.1 e.2) t = some (t ++ cl.map fun e => (e.1, soloRow e.2)) by
    simpa using h cl [] hn hc (by simp)
  intro cl
  induction cl with
  | nil => intro t _ _ _; simp [List.foldlM]
  | cons e cl ih =>
    intro t hn hc ht
    rw [List.map_cons, List.nodup_cons] at hn
    have hnew : dictGet t e.1 = none := by
      cases h : dictGet t e.1 with
      | none => rfl
      | some v => exact absurd (List.mem_map_of_mem (f := Prod.fst) (dictGet_mem h)) (ht e (by simp))
    have hrow : rowAppend (e.2.map fun kv => (kv.1, ([] : List ℝ))) e.2 = some (soloRow e.2) := by
      rw [rowAppend_eq e.2 _ (by simpa [List.map_map, Function.comp_def] using hc e (by simp)) (hc e (by simp))
        (by simp [List.map_map, Function.comp_def])]
      rw [List.map_map]
      congr 1
      refine List.map_congr_left fun kv hkv => ?_
      have := dictGet_of_mem (hc e (by simp)) (k := kv.1) (v := kv.2) hkv
      simp [this]
    have hadd : tableAdd t e.1 e.2 = some (t ++ [(e.1, soloRow e.2)]) := by
      unfold tableAdd
      simp only [hnew, Option.getD_none, hrow, Option.map_some]
      rw [dictSet_new (ht e (by simp))]
    rw [List.foldlM_cons, hadd]
    have := ih (t ++ [(e.1, soloRow e.2)]) hn.2 (fun e' he' => hc e' (List.mem_cons_of_mem _ he')) (by
      intro e' he'
      simp only [List.map_append, List.map_cons, List.map_nil, List.mem_append, List.mem_singleton, not_or]
      exact ⟨ht e' (List.mem_cons_of_mem _ he'), fun h => hn.1 (h ▸ List.mem_map_of_mem he')⟩)
    simpa using this

theorem firstOf_solo (r : List (List Char × ℝ)) (k : String) : firstOf (soloRow r) k = dictGet r k.toList := by
  unfold firstOf soloRow
  rw [dictGet_map (fun _ v => [v])]
  cases dictGet r k.toList <;> rfl

end Discs
