import Verif.Model.TextInfill
import Mathlib.Data.List.Nodup
import Mathlib.Data.List.Perm.Basic
import Mathlib.Tactic.Linarith

/-!
# C83: the sentences a text-infilling run reports
-/

namespace Discs

/-! ### The prefixes -/

theorem addPrefix_takeWhile (i : ℕ) (s : List Char) :
    (addPrefix i s).takeWhile Char.isDigit = Nat.toDigits 10 i := by
  unfold addPrefix
  rw [List.takeWhile_append_of_pos fun c hc => Nat.isDigit_of_mem_toDigits (by norm_num) (by norm_num) hc]
  simp [Char.isDigit]

/-- Keys of different resamplings differ, whatever the sentences. -/
theorem addPrefix_inj {i j : ℕ} {s t : List Char} (h : addPrefix i s = addPrefix j t) : i = j := by
  have := congrArg (List.takeWhile Char.isDigit) h
  rw [addPrefix_takeWhile, addPrefix_takeWhile] at this
  rw [← Nat.ofDigitChars_ten_toDigits (n := i), this, Nat.ofDigitChars_ten_toDigits]

/-- What is left of the `i`-th sentence after adding the prefix and cutting two characters. -/
theorem addPrefix_strip (i : ℕ) (s : List Char) :
    (addPrefix i s).drop 2 =
      if i < 10 then s else if i < 100 then ' ' :: s else (Nat.toDigits 10 i).drop 2 ++ ' ' :: s := by
  unfold addPrefix
  split
  · rename_i h
    rw [Nat.toDigits_of_lt_base h]; rfl
  · rename_i h
    have h2 : 2 ≤ (Nat.toDigits 10 i).length := by
      by_contra hc
      have : (Nat.toDigits 10 i).length ≤ 1 := by omega
      rw [Nat.length_toDigits_le_iff (by norm_num) (by norm_num)] at this
      omega
    rw [List.drop_append_of_le_length h2]
    split
    · rename_i h'
      have : (Nat.toDigits 10 i).length ≤ 2 := by
        rw [Nat.length_toDigits_le_iff (by norm_num) (by norm_num)]; omega
      rw [List.drop_eq_nil_of_le this, List.nil_append]
    · rfl

/-! ### The dictionary -/

theorem foldl_dictSet_nodup {K V : Type*} [DecidableEq K] (l : List (K × V)) :
    ∀ d : List (K × V), ((d ++ l).map Prod.fst).Nodup →
      l.foldl (fun d kv => dictSet d kv.1 kv.2) d = d ++ l := by
  induction l with
  | nil => intro d _; simp
  | cons a l ih =>
    intro d h
    have hno : ¬ (d.any fun p => p.1 = a.1) = true := by
      intro hc
      obtain ⟨p, hp, he⟩ := List.any_eq_true.1 hc
      have he' : p.1 = a.1 := of_decide_eq_true he
      rw [List.map_append, List.nodup_append] at h
      exact h.2.2 _ (List.mem_map_of_mem hp) _ (List.mem_map_of_mem List.mem_cons_self) he'
    rw [List.foldl_cons]
    have hs : dictSet d a.1 a.2 = d ++ [a] := by
      unfold dictSet; rw [if_neg hno]
    rw [hs, ih]
    · simp
    · simpa using h

theorem prefixed_nodup (out : List (List Char × ℝ)) :
    ((out.mapIdx fun i sl => (addPrefix i sl.1, sl.2)).map Prod.fst).Nodup := by
  rw [List.nodup_iff_injective_get]
  rintro ⟨a, ha⟩ ⟨b, hb⟩ h
  simp only [List.get_eq_getElem, List.getElem_map, List.getElem_mapIdx] at h
  exact Fin.ext (addPrefix_inj h)

/-- **C83.** The reported sentences are the sampled ones, in order, each without the first two
characters of `"<index> sentence"`; the top-k list holds the `k` of largest log-likelihood (all of
them when `k = 0`), in ascending order, even when sentences coincide. -/
theorem textSentences_topk (k : ℕ) (out : List (List Char × ℝ)) :
    let dec := out.mapIdx fun i sl => ((addPrefix i sl.1).drop 2, sl.2)
    (textSentences true k out).1 = dec.map Prod.fst ∧
      ∃ rest top : List (List Char × ℝ), (rest ++ top).Perm dec ∧
        (rest ++ top).Pairwise (fun a b => a.2 ≤ b.2) ∧
        (textSentences true k out).2 = top.map Prod.fst ∧
        top.length = if k = 0 then out.length else min k out.length := by
  intro dec
  have hdict : (out.mapIdx fun i sl => (addPrefix i sl.1, sl.2)).foldl (fun d kv => dictSet d kv.1 kv.2) []
      = out.mapIdx fun i sl => (addPrefix i sl.1, sl.2) := by
    rw [foldl_dictSet_nodup _ [] (by simpa using prefixed_nodup out)]; rfl
  have hdec : dec = (out.mapIdx fun i sl => (addPrefix i sl.1, sl.2)).map fun kv => (kv.1.drop 2, kv.2) := by
    apply List.ext_getElem (by simp [dec])
    intro i h1 h2
    simp [dec]
  constructor
  · simp only [textSentences, if_true]
    rw [hdec, List.map_map]
    rfl
  · simp only [textSentences, if_true]
    rw [hdict]
    generalize hS : (out.mapIdx fun i sl => (addPrefix i sl.1, sl.2)).mergeSort
      (fun a b => decide (a.2 ≤ b.2)) = S
    have hperm : S.Perm (out.mapIdx fun i sl => (addPrefix i sl.1, sl.2)) := by
      rw [← hS]; exact List.mergeSort_perm _ _
    have hpw : S.Pairwise (fun a b => a.2 ≤ b.2) := by
      rw [← hS]
      have := List.pairwise_mergeSort (le := fun a b : List Char × ℝ => decide (a.2 ≤ b.2))
        (fun a b c h1 h2 => by
          simp only [decide_eq_true_eq] at h1 h2 ⊢; exact h1.trans h2)
        (fun a b => by
          simp only [Bool.or_eq_true, decide_eq_true_eq]; exact le_total _ _)
        (out.mapIdx fun i sl => (addPrefix i sl.1, sl.2))
      exact this.imp fun h => of_decide_eq_true h
    have hlen : S.length = out.length := by rw [hperm.length_eq, List.length_mapIdx]
    have hsplit : ∀ m, ∃ rest top : List (List Char × ℝ), (rest ++ top).Perm dec ∧
        (rest ++ top).Pairwise (fun a b => a.2 ≤ b.2) ∧
        ((S.map Prod.fst).drop m).map (fun s => s.drop 2) = top.map Prod.fst ∧
        top.length = out.length - m := by
      intro m
      refine ⟨(S.take m).map fun kv => (kv.1.drop 2, kv.2), (S.drop m).map fun kv => (kv.1.drop 2, kv.2),
        ?_, ?_, ?_, ?_⟩
      · rw [← List.map_append, List.take_append_drop, hdec]
        exact hperm.map _
      · rw [← List.map_append, List.take_append_drop, List.pairwise_map]
        exact hpw
      · rw [← List.map_drop, List.map_map, List.map_map]; rfl
      · rw [List.length_map, List.length_drop, hlen]
    by_cases hk : k = 0
    · obtain ⟨r, t, h1, h2, h3, h4⟩ := hsplit 0
      refine ⟨r, t, h1, h2, ?_, ?_⟩
      · rw [← h3]; simp [lastN, hk]
      · rw [h4]; simp [hk]
    · obtain ⟨r, t, h1, h2, h3, h4⟩ := hsplit (out.length - k)
      refine ⟨r, t, h1, h2, ?_, ?_⟩
      · rw [← h3]; simp [lastN, hk, hlen]
      · rw [h4, if_neg hk]; omega

/-- **C83, what holds.** With at most ten resamplings the reported sentences are exactly the sampled ones
and the top-k list consists of sampled sentences of largest log-likelihood. -/
theorem textSentences_exact_partial (k : ℕ) (out : List (List Char × ℝ)) (hn : out.length ≤ 10) :
    (textSentences true k out).1 = out.map Prod.fst ∧
      ∃ rest top : List (List Char × ℝ), (rest ++ top).Perm out ∧
        (rest ++ top).Pairwise (fun a b => a.2 ≤ b.2) ∧
        (textSentences true k out).2 = top.map Prod.fst ∧
        top.length = if k = 0 then out.length else min k out.length := by
  have hdec : (out.mapIdx fun i sl => ((addPrefix i sl.1).drop 2, sl.2)) = out := by
    apply List.ext_getElem (by simp)
    intro i h1 h2
    rw [List.getElem_mapIdx, addPrefix_strip, if_pos (by omega)]
  have := textSentences_topk k out
  simp only [hdec] at this
  exact this

/-- Without top-k the sentences are reported unchanged. -/
theorem textSentences_plain (k : ℕ) (out : List (List Char × ℝ)) :
    textSentences false k out = (out.map Prod.fst, []) := rfl

/-- **C83, refuted part.** From the eleventh resampling on the reported sentence is never the sampled
one; with the default of 25 resamplings 15 sentences of every 25 carry a leading space. -/
theorem textSentences_altered (k : ℕ) (out : List (List Char × ℝ)) (i : ℕ) (hi : i < out.length) :
    (textSentences true k out).1[i]? = some (out[i]).1 ↔ i < 10 := by
  rw [(textSentences_topk k out).1]
  simp only [List.getElem?_map, List.getElem?_mapIdx, List.getElem?_eq_getElem hi, Option.map_some,
    Option.some.injEq, addPrefix_strip]
  constructor
  · intro h
    by_contra hc
    rw [if_neg hc] at h
    split at h
    · have := congrArg List.length h
      simp at this
    · have := congrArg List.length h
      simp at this
      omega
  · intro h; rw [if_pos h]

/-! ### Resampling -/

/-- **C83.** The `i`-th resampling is the run from the same start with the key that `i` runs leave. -/
theorem resampleLoop_eq {K S : Type*} (run : K → S × K × ℝ) (n : ℕ) :
    ∀ key : K, resampleLoop run n key = (List.range n).map fun i =>
      ((run ((fun k => (run k).2.1)^[i] key)).1, (run ((fun k => (run k).2.1)^[i] key)).2.2) := by
  induction n with
  | zero => intro key; rfl
  | succ n ih =>
    intro key
    rw [resampleLoop, ih, List.range_succ_eq_map]
    simp

/-! ### The evaluation -/

/-- **C83, refuted part.** The evaluation of the sentences raises for every evaluator, data directory
and list of sentences: nothing is saved. -/
theorem textResults_fails {R : Type*} (evaluate : List PyArg → R) (dataRoot : List Char)
    (sents : List (List (List Char) × List (List Char))) (useTopk : Bool) :
    textResults evaluate dataRoot sents useTopk = none := by
  simp [textResults, jitCall, jitAcceptsAll, jitAccepts]

/-- Arrays would pass. -/
example : jitCall (fun _ => (1 : ℕ)) [.list [.array [1, 2], .array []], .array [3]] = some 1 := by
  simp [jitCall, jitAcceptsAll, jitAccepts]

/-- Three resamplings, two of them of the same sentence. -/
example : (textSentences true 2 [("ab".toList, -1), ("ab".toList, -3), ("c".toList, -2)]).1
    = ["ab".toList, "ab".toList, "c".toList] :=
  (textSentences_exact_partial 2 _ (by decide)).1

end Discs
