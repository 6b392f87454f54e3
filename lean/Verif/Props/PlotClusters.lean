import Verif.Model.PlotUtils
import Verif.Props.Loader

/-!
# C85: grouping of results
-/

namespace Discs

namespace Spec

/-- Two configurations agree on every key except `name` and `key`. -/
def AgreeOutside (key : List Char) (a b : List (List Char × List Char)) : Prop :=
  ∀ k, k ≠ "name".toList → k ≠ key → dictGet a k = dictGet b k

end Spec

/-! ### Clusters -/

section clusters

variable (key : List Char) (ds : List ExpDict)

/-- What `clusterInsert` does: either a cluster gets the index, and it is the first whose first member
matches, or no cluster matches and a new one is opened. -/
theorem clusterInsert_cases (i : ℕ) (cs : List (List ℕ)) :
    (∃ pre c post, cs = pre ++ c :: post ∧ clusterInsert key ds i cs = pre ++ (c ++ [i]) :: post ∧
        diffKey key (ds.getD (c.headD 0) []) (ds.getD i []) = true ∧
        ∀ c' ∈ pre, diffKey key (ds.getD (c'.headD 0) []) (ds.getD i []) = false) ∨
      (clusterInsert key ds i cs = cs ++ [[i]] ∧
        ∀ c' ∈ cs, diffKey key (ds.getD (c'.headD 0) []) (ds.getD i []) = false) := by
  induction cs with
  | nil => right; simp [clusterInsert]
  | cons c cs ih =>
    by_cases h : diffKey key (ds.getD (c.headD 0) []) (ds.getD i []) = true
    · left
      exact ⟨[], c, cs, rfl, by simp only [clusterInsert, if_pos h]; rfl, h, by simp⟩
    · have h' : diffKey key (ds.getD (c.headD 0) []) (ds.getD i []) = false := by simpa using h
      rcases ih with ⟨pre, c0, post, h1, h2, h3, h4⟩ | ⟨h1, h2⟩
      · left
        refine ⟨c :: pre, c0, post, by rw [h1]; rfl, ?_, h3, ?_⟩
        · simp only [clusterInsert, if_neg h]; rw [h2]; rfl
        · intro c' hc'
          rcases List.mem_cons.1 hc' with rfl | hc'
          · exact h'
          · exact h4 c' hc'
      · right
        refine ⟨?_, ?_⟩
        · simp only [clusterInsert, if_neg h]; rw [h1]; rfl
        · intro c' hc'
          rcases List.mem_cons.1 hc' with rfl | hc'
          · exact h'
          · exact h2 c' hc'

/-- The invariant of the loop after `n` experiments. -/
structure ClusterInv (n : ℕ) (cs : List (List ℕ)) : Prop where
  perm : cs.flatten.Perm ((List.range n).filter fun i => (dictGet (ds.getD i []) key).isSome)
  ne : ∀ c ∈ cs, c ≠ []
  asc : ∀ c ∈ cs, c.Pairwise (· < ·)
  own : ∀ c ∈ cs, ∀ i ∈ c.tail, diffKey key (ds.getD (c.headD 0) []) (ds.getD i []) = true
  first : cs.Pairwise fun c c' => ∀ i ∈ c', diffKey key (ds.getD (c.headD 0) []) (ds.getD i []) = false

theorem clusterInv_all : ClusterInv key ds ds.length (clustersBy key ds) := by
  unfold clustersBy
  suffices h : ∀ n, ClusterInv key ds n ((List.range n).foldl (fun cs i =>
      if (dictGet (ds.getD i []) key).isNone then cs else clusterInsert key ds i cs) []) from h _
  intro n
  induction n with
  | zero => exact ⟨by simp, by simp, by simp, by simp, List.Pairwise.nil⟩
  | succ n ih =>
    rw [List.range_succ, List.foldl_append, List.foldl_cons, List.foldl_nil]
    generalize (List.range n).foldl (fun cs i =>
      if (dictGet (ds.getD i []) key).isNone then cs else clusterInsert key ds i cs) [] = cs at ih ⊢
    by_cases hk : (dictGet (ds.getD n []) key).isNone
    · rw [if_pos hk]
      have hk' : (dictGet (ds.getD n []) key).isSome = false := by simpa using hk
      refine ⟨?_, ih.ne, ih.asc, ih.own, ih.first⟩
      rw [List.range_succ, List.filter_append, List.filter_cons, hk']
      simpa using ih.perm
    · rw [if_neg hk]
      have hk' : (dictGet (ds.getD n []) key).isSome = true := by
        cases h : dictGet (ds.getD n []) key with
        | none => rw [h] at hk; exact absurd rfl hk
        | some v => rfl
      have hfil : ((List.range (n + 1)).filter fun i => (dictGet (ds.getD i []) key).isSome)
          = ((List.range n).filter fun i => (dictGet (ds.getD i []) key).isSome) ++ [n] := by
        rw [List.range_succ, List.filter_append, List.filter_cons, hk']; rfl
      have hlt : ∀ c ∈ cs, ∀ i ∈ c, i < n := by
        intro c hc i hi
        have := ih.perm.mem_iff.1 (List.mem_flatten.2 ⟨c, hc, hi⟩)
        exact List.mem_range.1 (List.mem_of_mem_filter this)
      rcases clusterInsert_cases key ds n cs with ⟨pre, c, post, h1, h2, h3, h4⟩ | ⟨h1, h2⟩
      · have hc : c ∈ cs := by rw [h1]; simp
        have hcne := ih.ne c hc
        have hhead : (c ++ [n]).headD 0 = c.headD 0 := by cases c <;> simp_all
        have htail : (c ++ [n]).tail = c.tail ++ [n] := List.tail_append_of_ne_nil hcne
        have hmem : ∀ x, x ∈ pre ++ (c ++ [n]) :: post ↔ x = c ++ [n] ∨ (x ∈ pre ∨ x ∈ post) := by
          intro x; simp only [List.mem_append, List.mem_cons]; tauto
        have hold : ∀ x, x ∈ pre ∨ x ∈ post → x ∈ cs := by
          intro x hx; rw [h1]; simp only [List.mem_append, List.mem_cons]; tauto
        rw [h2]
        refine ⟨?_, ?_, ?_, ?_, ?_⟩
        · rw [hfil]
          have hp := ih.perm
          rw [h1] at hp
          simp only [List.flatten_append, List.flatten_cons] at hp ⊢
          refine List.Perm.trans ?_ (hp.append_right [n])
          rw [List.append_assoc, List.append_assoc, List.append_assoc]
          exact ((List.perm_append_comm (l₁ := [n]) (l₂ := post.flatten)).append_left c).append_left
            pre.flatten
        · intro x hx
          rcases (hmem x).1 hx with rfl | hx
          · simp
          · exact ih.ne x (hold x hx)
        · intro x hx
          rcases (hmem x).1 hx with rfl | hx
          · rw [List.pairwise_append]
            refine ⟨ih.asc c hc, by simp, ?_⟩
            intro a ha b hb
            rw [List.mem_singleton] at hb
            subst hb
            exact hlt c hc a ha
          · exact ih.asc x (hold x hx)
        · intro x hx i hi
          rcases (hmem x).1 hx with rfl | hx
          · rw [htail] at hi
            rw [hhead]
            rcases List.mem_append.1 hi with hi | hi
            · exact ih.own c hc i hi
            · rw [List.mem_singleton] at hi; subst hi; exact h3
          · exact ih.own x (hold x hx) i hi
        · have hf := ih.first
          rw [h1, List.pairwise_append, List.pairwise_cons] at hf
          obtain ⟨f1, ⟨f2, f3⟩, f4⟩ := hf
          rw [List.pairwise_append, List.pairwise_cons]
          refine ⟨f1, ⟨?_, f3⟩, ?_⟩
          · intro c' hc' i hi
            rw [hhead]
            exact f2 c' hc' i hi
          · intro a ha b hb i hi
            rcases List.mem_cons.1 hb with rfl | hb
            · rcases List.mem_append.1 hi with hi | hi
              · exact f4 a ha c List.mem_cons_self i hi
              · rw [List.mem_singleton] at hi; subst hi; exact h4 a ha
            · exact f4 a ha b (List.mem_cons_of_mem _ hb) i hi
      · rw [h1]
        refine ⟨?_, ?_, ?_, ?_, ?_⟩
        · rw [hfil]; simpa using ih.perm.append_right [n]
        · intro x hx
          rcases List.mem_append.1 hx with hx | hx
          · exact ih.ne x hx
          · rw [List.mem_singleton] at hx; subst hx; simp
        · intro x hx
          rcases List.mem_append.1 hx with hx | hx
          · exact ih.asc x hx
          · rw [List.mem_singleton] at hx; subst hx; simp
        · intro x hx i hi
          rcases List.mem_append.1 hx with hx | hx
          · exact ih.own x hx i hi
          · rw [List.mem_singleton] at hx; subst hx; simp at hi
        · rw [List.pairwise_append]
          refine ⟨ih.first, by simp, ?_⟩
          intro a ha b hb i hi
          rw [List.mem_singleton] at hb; subst hb
          rw [List.mem_singleton] at hi; subst hi
          exact h2 a ha

/-- **C85.** Every experiment that has the key is in exactly one cluster, the others in none. -/
theorem clusters_partition :
    (clustersBy key ds).flatten.Perm
        ((List.range ds.length).filter fun i => (dictGet (ds.getD i []) key).isSome) ∧
      (clustersBy key ds).flatten.Nodup ∧ ∀ c ∈ clustersBy key ds, c ≠ [] ∧ c.Pairwise (· < ·) := by
  have h := clusterInv_all key ds
  refine ⟨h.perm, (h.perm.nodup_iff).2 (List.nodup_range.filter _), fun c hc => ⟨h.ne c hc, h.asc c hc⟩⟩

/-- For dictionaries with the same keys, the comparison says whether the configurations agree outside
the key and the name. -/
theorem diffKey_iff {a b : ExpDict} (hb : ∀ k, (dictGet a k).isSome = (dictGet b k).isSome)
    (hnd : (a.map Prod.fst).Nodup) : diffKey key a b = true ↔ Spec.AgreeOutside key a b := by
  have hget : ∀ (a : ExpDict), (a.map Prod.fst).Nodup → ∀ kv ∈ a, dictGet a kv.1 = some kv.2 := by
    intro a
    induction a with
    | nil => simp
    | cons p a ih =>
      intro hnd kv hkv
      rw [List.map_cons, List.nodup_cons] at hnd
      rcases List.mem_cons.1 hkv with rfl | hkv
      · simp [dictGet]
      · have hne : p.1 ≠ kv.1 := fun e => hnd.1 (e ▸ List.mem_map_of_mem hkv)
        have := ih hnd.2 kv hkv
        unfold dictGet at this ⊢
        rw [List.find?_cons_of_neg (by simpa using hne)]
        exact this
  have hmem : ∀ (a : ExpDict) k v, dictGet a k = some v → (k, v) ∈ a := by
    intro a k v h
    unfold dictGet at h
    obtain ⟨p, hp, he⟩ := Option.map_eq_some_iff.1 h
    have h1 := List.mem_of_find?_eq_some hp
    have h2 := List.find?_some hp
    have h3 : p.1 = k := of_decide_eq_true h2
    rw [← h3, ← he]
    exact h1
  unfold diffKey
  rw [List.all_eq_true]
  constructor
  · intro h k hname hkey
    cases ha : dictGet a k with
    | none =>
      have := hb k
      rw [ha] at this
      cases hbk : dictGet b k with
      | none => rfl
      | some v => rw [hbk] at this; cases this
    | some v =>
      have := h (k, v) (hmem a k v ha)
      have h1 : decide (k = "name".toList) = false := decide_eq_false hname
      have h2 : decide (k = key) = false := decide_eq_false hkey
      rw [h1, h2] at this
      cases hbk : dictGet b k with
      | none => rw [hbk] at this; cases this
      | some w =>
        rw [hbk] at this
        simp only [Bool.false_or, Bool.or_false, decide_eq_true_eq] at this
        rw [this]
  · intro h kv hkv
    have ha := hget a hnd kv hkv
    by_cases hname : kv.1 = "name".toList
    · simp [hname]
    · have hs := hb kv.1
      rw [ha] at hs
      obtain ⟨w, hw⟩ := Option.isSome_iff_exists.1 hs.symm
      rw [hw]
      by_cases hkey : kv.1 = key
      · simp [hkey]
      · have := h kv.1 hname hkey
        rw [ha, hw] at this
        simp [Option.some.inj this]

/-- **C85, what holds.** When all experiments have the same keys, two experiments are in the same cluster
exactly if their configurations agree outside the key and the name. -/
theorem clusters_classes_partial
    (hkeys : ∀ a ∈ ds, ∀ b ∈ ds, ∀ k, (dictGet a k).isSome = (dictGet b k).isSome)
    (hnd : ∀ a ∈ ds, (a.map Prod.fst).Nodup) (i j : ℕ)
    (hi : i ∈ (clustersBy key ds).flatten) (hj : j ∈ (clustersBy key ds).flatten) :
    (∃ c ∈ clustersBy key ds, i ∈ c ∧ j ∈ c) ↔
      Spec.AgreeOutside key (ds.getD i []) (ds.getD j []) := by
  have hinv := clusterInv_all key ds
  have hin : ∀ i ∈ (clustersBy key ds).flatten, ds.getD i [] ∈ ds := by
    intro i hi
    have := List.mem_range.1 (List.mem_of_mem_filter (hinv.perm.mem_iff.1 hi))
    have e : ds.getD i [] = ds[i] := by simp [this]
    rw [e]
    exact List.getElem_mem this
  have hhead : ∀ c ∈ clustersBy key ds, c.headD 0 ∈ (clustersBy key ds).flatten := by
    intro c hc
    refine List.mem_flatten.2 ⟨c, hc, ?_⟩
    have := hinv.ne c hc
    cases c with
    | nil => exact absurd rfl this
    | cons x c => exact List.mem_cons_self
  have hiff : ∀ a ∈ (clustersBy key ds).flatten, ∀ b ∈ (clustersBy key ds).flatten,
      (diffKey key (ds.getD a []) (ds.getD b []) = true
        ↔ Spec.AgreeOutside key (ds.getD a []) (ds.getD b [])) := fun a ha b hb =>
    diffKey_iff key (hkeys _ (hin a ha) _ (hin b hb)) (hnd _ (hin a ha))
  have hown : ∀ c ∈ clustersBy key ds, ∀ i ∈ c,
      Spec.AgreeOutside key (ds.getD (c.headD 0) []) (ds.getD i []) := by
    intro c hc i hi
    have hic := List.mem_flatten.2 ⟨c, hc, hi⟩
    cases c with
    | nil => cases hi
    | cons x c =>
      rcases List.mem_cons.1 hi with rfl | hi'
      · intro k _ _; rfl
      · exact (hiff _ (hhead _ hc) _ hic).1 (hinv.own _ hc i hi')
  constructor
  · rintro ⟨c, hc, hic, hjc⟩ k h1 h2
    rw [← hown c hc i hic k h1 h2, hown c hc j hjc k h1 h2]
  · intro hag
    obtain ⟨c, hc, hic⟩ := List.mem_flatten.1 hi
    obtain ⟨c', hc', hjc'⟩ := List.mem_flatten.1 hj
    obtain ⟨p, hp, rfl⟩ := List.getElem_of_mem hc
    obtain ⟨q, hq, rfl⟩ := List.getElem_of_mem hc'
    have hno : ∀ p q (hp : p < (clustersBy key ds).length) (hq : q < (clustersBy key ds).length), p < q →
        ∀ i ∈ (clustersBy key ds)[p], ∀ j ∈ (clustersBy key ds)[q],
          ¬ Spec.AgreeOutside key (ds.getD i []) (ds.getD j []) := by
      intro p q hp hq hpq i hi j hj hag
      have hf := List.pairwise_iff_getElem.1 hinv.first p q hp hq hpq j hj
      have hjm : j ∈ (clustersBy key ds).flatten := List.mem_flatten.2 ⟨_, List.getElem_mem hq, hj⟩
      have : Spec.AgreeOutside key (ds.getD (((clustersBy key ds)[p]).headD 0) []) (ds.getD j []) := by
        intro k h1 h2
        rw [hown _ (List.getElem_mem hp) i hi k h1 h2, hag k h1 h2]
      rw [(hiff _ (hhead _ (List.getElem_mem hp)) _ hjm).2 this] at hf
      cases hf
    rcases lt_trichotomy p q with h | h | h
    · exact absurd hag (hno p q hp hq h i hic j hjc')
    · subst h; exact ⟨_, hc, hic, hjc'⟩
    · refine absurd ?_ (hno q p hq hp h j hjc' i hic)
      intro k h1 h2; exact (hag k h1 h2).symm

end clusters

/-- Short notation for the examples. -/
def exD (l : List (String × String)) : ExpDict := l.map fun kv => (kv.1.toList, kv.2.toList)

/-- Two samplers on two sizes: two clusters. -/
example : clustersBy "name".toList
    [exD [("name", "gwg"), ("shape", "10")], exD [("name", "pas"), ("shape", "10")],
      exD [("name", "gwg"), ("shape", "20")], exD [("shape", "20")]] = [[0, 1], [2]] := by decide

/-- **C85, refuted part.** With different keys the clusters depend on the order of the folders: a key that
only the second experiment has is not compared. -/
theorem clusters_order_dependent :
    clustersBy "name".toList [exD [("name", "gwg")], exD [("name", "pas"), ("shape", "20")]] = [[0, 1]] ∧
      clustersBy "name".toList [exD [("name", "pas"), ("shape", "20")], exD [("name", "gwg")]]
        = [[0], [1]] := by decide

/-! ### Tables -/

section tables

variable {R : Type*}

theorem dictSet_keys {K V : Type*} [DecidableEq K] (d : List (K × V)) (k : K) (v w : V)
    (h : dictGet d k = some w) : (dictSet d k v).map Prod.fst = d.map Prod.fst := by
  unfold dictGet at h
  obtain ⟨p, hp, _⟩ := Option.map_eq_some_iff.1 h
  have hany : d.any (fun p => decide (p.1 = k)) = true :=
    List.any_eq_true.2 ⟨p, List.mem_of_find?_eq_some hp,
      List.find?_some (p := fun p : K × V => decide (p.1 = k)) hp⟩
  unfold dictSet
  rw [if_pos hany, List.map_map]
  refine List.map_congr_left fun q _ => ?_
  simp only [Function.comp]
  split <;> simp_all

/-- An association list with distinct keys is determined by its keys and its values. -/
theorem dict_ext {K V : Type*} [DecidableEq K] : ∀ (d e : List (K × V)), d.map Prod.fst = e.map Prod.fst →
    (d.map Prod.fst).Nodup → (∀ k ∈ d.map Prod.fst, dictGet d k = dictGet e k) → d = e := by
  intro d
  induction d with
  | nil =>
    intro e h _ _
    cases e with
    | nil => rfl
    | cons a e => simp at h
  | cons a d ih =>
    intro e h hnd hg
    cases e with
    | nil => simp at h
    | cons b e =>
      simp only [List.map_cons, List.cons.injEq] at h
      rw [List.map_cons, List.nodup_cons] at hnd
      have h1 := hg a.1 (by simp)
      have hab : a = b := by
        have h2 : dictGet (b :: e) a.1 = some b.2 := by simp [dictGet, h.1]
        have h3 : dictGet (a :: d) a.1 = some a.2 := by simp [dictGet]
        rw [h2, h3] at h1
        exact Prod.ext h.1 (Option.some.inj h1)
      subst hab
      congr 1
      refine ih e h.2 hnd.2 fun k hk => ?_
      have hne : a.1 ≠ k := fun e => hnd.1 (e ▸ hk)
      have := hg k (List.mem_cons_of_mem _ hk)
      unfold dictGet at this ⊢
      rwa [List.find?_cons_of_neg (by simpa using hne), List.find?_cons_of_neg (by simpa using hne)]
        at this

theorem dictGet_map {K A B : Type*} [DecidableEq K] (f : K → A → B) (l : List (K × A)) (k : K) :
    dictGet (l.map fun p => (p.1, f p.1 p.2)) k = (dictGet l k).map (f k) := by
  induction l with
  | nil => rfl
  | cons a l ih =>
    unfold dictGet at ih ⊢
    rw [List.map_cons]
    by_cases h : a.1 = k
    · subst h; simp
    · rw [List.find?_cons_of_neg (by simpa using h), List.find?_cons_of_neg (by simpa using h)]
      exact ih

theorem dictGet_isSome {K V : Type*} [DecidableEq K] (d : List (K × V)) (k : K) :
    (dictGet d k).isSome = true ↔ k ∈ d.map Prod.fst := by
  unfold dictGet
  simp [List.find?_isSome]

/-- Appending the results of one experiment to a row with the same columns. -/
theorem rowAppend_eq (results : List (List Char × R)) :
    ∀ row : List (List Char × List R), (row.map Prod.fst).Nodup → (results.map Prod.fst).Nodup →
      (∀ k ∈ results.map Prod.fst, k ∈ row.map Prod.fst) →
      rowAppend row results
        = some (row.map fun kl => (kl.1, kl.2 ++ (dictGet results kl.1).toList)) := by
  induction results with
  | nil =>
    intro row _ _ _
    simp [rowAppend, dictGet]
  | cons kv rest ih =>
    intro row hr hs hin
    obtain ⟨k, v⟩ := kv
    have hk : k ∈ row.map Prod.fst := hin k (by simp)
    obtain ⟨l, hl⟩ := Option.isSome_iff_exists.1 ((dictGet_isSome row k).2 hk)
    rw [List.map_cons, List.nodup_cons] at hs
    simp only [rowAppend, hl]
    have hkeys := dictSet_keys row k (l ++ [v]) l hl
    rw [ih _ (by rw [hkeys]; exact hr) hs.2 (by
      rw [hkeys]; intro k' hk'; exact hin k' (List.mem_cons_of_mem _ hk'))]
    congr 1
    have hkl : ((dictSet row k (l ++ [v])).map fun kl => (kl.1, kl.2 ++ (dictGet rest kl.1).toList)).map
        Prod.fst = row.map Prod.fst := by
      rw [List.map_map]
      exact hkeys
    refine dict_ext _ _ ?_ ?_ ?_
    · rw [hkl, List.map_map]; rfl
    · rw [hkl]; exact hr
    · intro c hc
      rw [hkl] at hc
      have e1 := dictGet_map (fun c (l : List R) => l ++ (dictGet rest c).toList) (dictSet row k (l ++ [v])) c
      have e2 := dictGet_map (fun c (l : List R) => l ++ (dictGet ((k, v) :: rest) c).toList) row c
      rw [e1, e2, dictGet_set]
      by_cases hck : k = c
      · subst hck
        have : dictGet rest k = none := by
          have := (dictGet_isSome rest k).not.2 hs.1
          simpa using this
        simp [hl, this]
        simp [dictGet]
      · have hne : ¬ c = k := fun e => hck e.symm
        have : dictGet ((k, v) :: rest) c = dictGet rest c := by
          unfold dictGet
          rw [List.find?_cons_of_neg (by simpa using hck)]
        rw [this]
        simp [hne]

/-- **C85.** The table of a cluster whose experiments report the same result keys: one row for every
name that occurs, holding in every column the results of the experiments of that name, in order. -/
theorem organizeCluster_spec (cols : List (List Char)) (hcols : cols.Nodup)
    (cluster : List (List Char × List (List Char × R)))
    (hc : ∀ e ∈ cluster, e.2.map Prod.fst = cols) :
    ∃ t, organizeCluster cluster = some t ∧ ∀ name, dictGet t name =
      if name ∈ cluster.map Prod.fst then
        some (cols.map fun c => (c, (cluster.filter fun e => e.1 = name).filterMap fun e => dictGet e.2 c))
      else none := by
  induction cluster using List.reverseRecOn with
  | nil => exact ⟨[], rfl, fun name => by simp [dictGet]⟩
  | append_singleton cl e ih =>
    obtain ⟨t, ht, hget⟩ := ih fun e he => hc e (by simp [he])
    have he : e.2.map Prod.fst = cols := hc e (by simp)
    unfold organizeCluster at ht ⊢
    rw [List.foldlM_append, ht]
    simp only [List.foldlM_cons, List.foldlM_nil, Option.bind_eq_bind, Option.bind_some,
      Option.pure_def]
    have hrow : (dictGet t e.1).getD (e.2.map fun kv => (kv.1, []))
        = cols.map fun c => (c, (cl.filter fun e' => e'.1 = e.1).filterMap fun e' => dictGet e'.2 c) := by
      rw [hget]
      split
      · rfl
      · rename_i hno
        have hf : cl.filter (fun e' => decide (e'.1 = e.1)) = [] := by
          rw [List.filter_eq_nil_iff]
          intro e' he' h
          exact hno (List.mem_map.2 ⟨e', he', of_decide_eq_true h⟩)
        rw [hf, ← he, List.map_map]
        rfl
    refine ⟨dictSet t e.1 (cols.map fun c =>
      (c, ((cl ++ [e]).filter fun e' => e'.1 = e.1).filterMap fun e' => dictGet e'.2 c)), ?_, ?_⟩
    · unfold tableAdd
      simp only
      rw [hrow, rowAppend_eq]
      · simp only [Option.map_some, Option.bind_some]
        congr 2
        rw [List.map_map]
        refine List.map_congr_left fun c _ => ?_
        simp only [Function.comp]
        rw [List.filter_append, List.filterMap_append]
        have : [e].filter (fun e' => decide (e'.1 = e.1)) = [e] := by simp
        rw [this]
        cases hd : dictGet e.2 c <;> simp [hd]
      · rw [List.map_map]; simpa [Function.comp_def] using hcols
      · rw [he]; exact hcols
      · intro k hk
        rw [he] at hk
        rw [List.map_map]
        simpa [Function.comp_def] using hk
    · intro name
      rw [dictGet_set]
      by_cases hn : e.1 = name
      · subst hn; simp
      · have hn' : ¬ name = e.1 := fun h => hn h.symm
        simp only [hn', if_false]
        rw [hget]
        have hf : (cl ++ [e]).filter (fun e' => decide (e'.1 = name))
            = cl.filter fun e' => decide (e'.1 = name) := by
          rw [List.filter_append]; simp [hn]
        rw [hf]
        simp only [List.map_append, List.mem_append, List.map_cons, List.map_nil, List.mem_singleton, hn',
          or_false]

/-- **C85.** Sorting the table: exactly the rows whose name starts with a known prefix are kept, ordered by
the position of their prefix in the list. -/
theorem sortSamplers_spec {A : Type*} (t : List (List Char × A)) :
    (sortSamplers t).Perm (t.filter fun e => (samplerId e.1).isSome) ∧
      (sortSamplers t).Pairwise fun a b => ∀ i j, samplerId a.1 = some i → samplerId b.1 = some j → i ≤ j := by
  set w := t.filterMap fun e => (samplerId e.1).map fun i => (i, e) with hw
  have hsort : sortSamplers t = (w.mergeSort fun a b => decide (a.1 ≤ b.1)).map Prod.snd := rfl
  have hperm : (w.mergeSort fun a b => decide (a.1 ≤ b.1)).Perm w := List.mergeSort_perm _ _
  have hid : ∀ p ∈ w, samplerId p.2.1 = some p.1 := by
    intro p hp
    obtain ⟨e, _, he⟩ := List.mem_filterMap.1 hp
    obtain ⟨i, hi, rfl⟩ := Option.map_eq_some_iff.1 he
    exact hi
  constructor
  · rw [hsort]
    refine (hperm.map Prod.snd).trans ?_
    have : w.map Prod.snd = t.filter fun e => (samplerId e.1).isSome := by
      rw [hw]
      clear hw hsort hperm hid
      clear w
      induction t with
      | nil => rfl
      | cons e t ih =>
        cases h : samplerId e.1 with
        | none => simp [h, ih]
        | some i => simp [h, ih]
    rw [this]
  · rw [hsort, List.pairwise_map]
    have hp := List.pairwise_mergeSort (le := fun a b : ℕ × List Char × A => decide (a.1 ≤ b.1))
      (fun a b c h1 h2 => by simp only [decide_eq_true_eq] at h1 h2 ⊢; exact h1.trans h2)
      (fun a b => by simp only [Bool.or_eq_true, decide_eq_true_eq]; exact le_total _ _) w
    refine (List.Pairwise.and_mem.1 hp).imp fun {a b} h i j hi hj => ?_
    have ha := hid a (hperm.mem_iff.1 h.1)
    have hb := hid b (hperm.mem_iff.1 h.2.1)
    rw [ha] at hi
    rw [hb] at hj
    have := of_decide_eq_true h.2.2
    rw [Option.some.inj hi, Option.some.inj hj] at this
    exact this

/-- **C85, refuted part.** The rows of the Gibbs and of the locally-balanced sampler are dropped. -/
theorem sortSamplers_drops {A : Type*} (a b c : A) :
    sortSamplers [("gibbs".toList, a), ("locallybalanced".toList, b), ("gwg".toList, c)]
      = [("gwg".toList, c)] := by
  have h1 : samplerId "gibbs".toList = none := by decide
  have h2 : samplerId "locallybalanced".toList = none := by decide
  have h3 : samplerId "gwg".toList = some 5 := by decide
  unfold sortSamplers
  simp only [List.filterMap_cons, h1, h2, h3, Option.map_none, Option.map_some, List.filterMap_nil]
  rw [List.mergeSort_singleton]
  rfl

/-- A small table. -/
example : organizeCluster [("gwg".toList, [("ess".toList, (1 : ℕ))]), ("pas".toList, [("ess".toList, 2)]),
      ("gwg".toList, [("ess".toList, 3)])]
    = some [("gwg".toList, [("ess".toList, [1, 3])]), ("pas".toList, [("ess".toList, [2])])] := by decide

end tables

end Discs
