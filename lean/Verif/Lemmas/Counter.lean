import Verif.Model.LMEval
import Mathlib.Data.Finset.Card
import Mathlib.Data.List.Basic

/-!
# `collections.Counter`
-/

namespace Discs

variable {K : Type*} [DecidableEq K]

theorem counterAdd_keys (c : List (K × ℕ)) (k : K) :
    (counterAdd c k).map Prod.fst =
      if k ∈ c.map Prod.fst then c.map Prod.fst else c.map Prod.fst ++ [k] := by
  induction c with
  | nil => simp [counterAdd]
  | cons kv c ih =>
    obtain ⟨k', v⟩ := kv
    simp only [counterAdd]
    by_cases h : k' = k
    · simp [h]
    · rw [if_neg h, List.map_cons, ih, List.map_cons]
      by_cases h2 : k ∈ c.map Prod.fst
      · rw [if_pos h2, if_pos (List.mem_cons_of_mem _ h2)]
      · rw [if_neg h2, if_neg]
        · simp
        · simp only [List.mem_cons, not_or]
          exact ⟨fun e => h e.symm, h2⟩

theorem counterAdd_sum (c : List (K × ℕ)) (k : K) :
    ((counterAdd c k).map Prod.snd).sum = (c.map Prod.snd).sum + 1 := by
  induction c with
  | nil => simp [counterAdd]
  | cons kv c ih =>
    obtain ⟨k', v⟩ := kv
    simp only [counterAdd]
    by_cases h : k' = k
    · rw [if_pos h]; simp; omega
    · rw [if_neg h, List.map_cons, List.sum_cons, ih, List.map_cons, List.sum_cons]; omega

theorem counterAdd_mem {c : List (K × ℕ)} {k k' : K} {v : ℕ}
    (hn : (c.map Prod.fst).Nodup) (h : (k', v) ∈ counterAdd c k) :
    (k' ≠ k ∧ (k', v) ∈ c) ∨ (k' = k ∧ k ∉ c.map Prod.fst ∧ v = 1) ∨
      (k' = k ∧ ∃ v', (k, v') ∈ c ∧ v = v' + 1) := by
  induction c with
  | nil =>
    simp [counterAdd] at h
    exact Or.inr (Or.inl ⟨h.1, by simp, h.2⟩)
  | cons kv c ih =>
    obtain ⟨a, b⟩ := kv
    simp only [counterAdd] at h
    have hn' := List.nodup_cons.1 (by simpa using hn : (a :: c.map Prod.fst).Nodup)
    by_cases e : a = k
    · subst e
      rw [if_pos rfl] at h
      rcases List.mem_cons.1 h with h' | h'
      · cases h'
        exact Or.inr (Or.inr ⟨rfl, b, by simp, rfl⟩)
      · refine Or.inl ⟨?_, List.mem_cons_of_mem _ h'⟩
        rintro rfl
        exact hn'.1 (List.mem_map_of_mem (f := Prod.fst) h')
    · rw [if_neg e] at h
      rcases List.mem_cons.1 h with h | h
      · cases h
        exact Or.inl ⟨e, by simp⟩
      · rcases ih hn'.2 h with ⟨h1, h2⟩ | ⟨h1, h2, h3⟩ | ⟨h1, v', h2, h3⟩
        · exact Or.inl ⟨h1, List.mem_cons_of_mem _ h2⟩
        · refine Or.inr (Or.inl ⟨h1, ?_, h3⟩)
          simp only [List.map_cons, List.mem_cons, not_or]
          exact ⟨fun e' => e e'.symm, h2⟩
        · exact Or.inr (Or.inr ⟨h1, v', List.mem_cons_of_mem _ h2, h3⟩)

/-- A counter lists every element once, with its number of occurrences. -/
theorem counter_spec (l : List K) :
    ((counter l).map Prod.fst).Nodup ∧ (∀ k, k ∈ (counter l).map Prod.fst ↔ k ∈ l) ∧
    (∀ k v, (k, v) ∈ counter l → v = l.count k) ∧ ((counter l).map Prod.snd).sum = l.length := by
  induction l using List.reverseRecOn with
  | nil => simp [counter]
  | append_singleton l a ih =>
    obtain ⟨h1, h2, h3, h4⟩ := ih
    have e : counter (l ++ [a]) = counterAdd (counter l) a := by simp [counter]
    rw [e]
    refine ⟨?_, ?_, ?_, ?_⟩
    · rw [counterAdd_keys]
      split_ifs with h
      · exact h1
      · exact List.Nodup.append h1 (by simp) (by simpa using h)
    · intro k
      rw [counterAdd_keys]
      split_ifs with h
      · rw [h2, List.mem_append, List.mem_singleton]
        constructor
        · exact Or.inl
        · rintro (h' | rfl)
          · exact h'
          · exact (h2 _).1 h
      · rw [List.mem_append, List.mem_append, h2]
    · intro k v hv
      rw [List.count_append, List.count_singleton]
      rcases counterAdd_mem h1 hv with ⟨g1, g2⟩ | ⟨rfl, g2, g3⟩ | ⟨rfl, v', g2, g3⟩
      · rw [h3 k v g2]
        have : (a == k) = false := by simpa using fun e => g1 e.symm
        simp [this]
      · rw [g3, List.count_eq_zero.2 (fun h => g2 ((h2 _).2 h))]; simp
      · rw [g3, h3 _ _ g2]; simp
    · rw [counterAdd_sum, h4]; simp

/-- Number of keys satisfying a predicate, as a cardinality. -/
theorem counter_keys_card (l : List K) (P : K → Prop) [DecidablePred P] :
    (((counter l).map Prod.fst).filter fun k => decide (P k)).length =
      (l.toFinset.filter P).card := by
  rw [← List.toFinset_card_of_nodup ((counter_spec l).1.filter _)]
  congr 1
  ext k
  simp only [List.mem_toFinset, List.mem_filter, decide_eq_true_eq, Finset.mem_filter,
    (counter_spec l).2.1 k]

theorem counter_once_card (l : List K) :
    ((counter l).filter fun kv => decide (kv.2 = 1)).length =
      (l.toFinset.filter fun k => l.count k = 1).card := by
  rw [← counter_keys_card l fun k => l.count k = 1, List.filter_map, List.length_map]
  congr 1
  refine List.filter_congr fun kv hkv => ?_
  simp only [Function.comp]
  rw [(counter_spec l).2.2.1 kv.1 kv.2 hkv]

end Discs
