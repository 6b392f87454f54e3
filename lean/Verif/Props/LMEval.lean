import Verif.Lemmas.Counter
import Mathlib.Data.Set.Card
import Mathlib.Tactic.Positivity
import Mathlib.Tactic.NormNum
import Mathlib.Algebra.Order.Field.Rat
import Mathlib.Data.Rat.Cast.Order

/-!
# C80: the language-model evaluator's n-gram statistics
-/

namespace Discs.Spec

variable {W : Type*}

/-- The phrase `g` occurs in one of the sentences. -/
def Occurs (g : List W) (sents : List (List W)) : Prop := ∃ s ∈ sents, g <:+: s

/-- Phrases of `n` tokens which occur in `preds` but not in `refs`. -/
def novel (n : ℕ) (preds refs : List (List W)) : Set (List W) :=
  {g | g.length = n ∧ Occurs g preds ∧ ¬ Occurs g refs}

/-- Number of places where a phrase of `n` tokens starts. -/
def positions (n : ℕ) (sents : List (List W)) : ℕ := (sents.map fun s => s.length + 1 - n).sum

/-- Number of places where the phrase `g` starts. -/
def occurrences [DecidableEq W] (g : List W) (sents : List (List W)) : ℕ :=
  (sents.map fun s => ((Finset.range (s.length + 1)).filter fun k => g <+: s.drop k).card).sum

end Discs.Spec

namespace Discs

open Spec

variable {W : Type*} [DecidableEq W]

-- phrases are compared with the equality test derived from decidable equality
attribute [-instance] List.instBEq

omit [DecidableEq W] in
theorem ngrams_length (n : ℕ) (s : List W) : (ngrams n s).length = s.length + 1 - n := by
  simp [ngrams]

omit [DecidableEq W] in
theorem mem_ngrams {n : ℕ} {s g : List W} : g ∈ ngrams n s ↔ g.length = n ∧ g <:+: s := by
  simp only [ngrams, List.mem_map, List.mem_range]
  constructor
  · rintro ⟨k, hk, rfl⟩
    refine ⟨by rw [List.length_take, List.length_drop]; omega, ?_⟩
    exact (List.take_prefix _ _).isInfix.trans (List.drop_suffix _ _).isInfix
  · rintro ⟨rfl, a, c, rfl⟩
    refine ⟨a.length, by simp only [List.length_append]; omega, ?_⟩
    simp

omit [DecidableEq W] in
theorem mem_flat {n : ℕ} {sents : List (List W)} {g : List W} :
    g ∈ sents.flatMap (ngrams n) ↔ g.length = n ∧ Occurs g sents := by
  simp only [List.mem_flatMap, mem_ngrams, Occurs]
  constructor
  · rintro ⟨s, hs, h1, h2⟩; exact ⟨h1, s, hs, h2⟩
  · rintro ⟨h1, s, hs, h2⟩; exact ⟨s, hs, h1, h2⟩

omit [DecidableEq W] in
theorem length_flat (n : ℕ) (sents : List (List W)) :
    (sents.flatMap (ngrams n)).length = positions n sents := by
  rw [List.length_flatMap, positions]
  congr 1
  exact List.map_congr_left fun s _ => ngrams_length n s

omit [DecidableEq W] in
theorem positions_zero (n : ℕ) (sents : List (List W)) :
    positions n sents = 0 ↔ ∀ s ∈ sents, s.length < n := by
  rw [positions, List.sum_eq_zero_iff]
  simp only [List.mem_map, forall_exists_index, and_imp, forall_apply_eq_imp_iff₂]
  exact forall₂_congr fun s _ => by omega

theorem count_flat {n : ℕ} {g : List W} (hg : g.length = n) (sents : List (List W)) :
    (sents.flatMap (ngrams n)).count g = occurrences g sents := by
  rw [List.count_flatMap, occurrences]
  congr 1
  refine List.map_congr_left fun s _ => ?_
  simp only [Function.comp, ngrams]
  rw [List.count, List.countP_map, List.countP_eq_length_filter]
  rw [← List.toFinset_card_of_nodup (List.nodup_range.filter _)]
  congr 1
  ext k
  simp only [List.mem_toFinset, List.mem_filter, List.mem_range, Function.comp, beq_iff_eq,
    Finset.mem_filter, Finset.mem_range]
  constructor
  · rintro ⟨h1, h2⟩
    exact ⟨by omega, h2 ▸ List.take_prefix _ _⟩
  · rintro ⟨h1, h2⟩
    have := h2.length_le
    rw [List.length_drop] at this
    have h3 := List.prefix_iff_eq_take.1 h2
    rw [hg] at h3
    refine ⟨?_, h3.symm⟩
    omega

omit [DecidableEq W] in
theorem novel_finite (n : ℕ) (preds refs : List (List W)) : (novel n preds refs).Finite := by
  classical
  refine (sentsFinite (preds.flatMap (ngrams n))).subset fun g hg => ?_
  exact mem_flat.2 ⟨hg.1, hg.2.1⟩
where
  sentsFinite (l : List (List W)) : {g | g ∈ l}.Finite := by
    classical
    exact (l.toFinset.finite_toSet).subset fun g hg => by simpa using hg

theorem refUnique_num (preds refs : List (List W)) (n : ℕ) :
    (((ngramCounts preds n).map Prod.fst).filter fun k =>
      decide (k ∉ (ngramCounts refs n).map Prod.fst)).length = (novel n preds refs).ncard := by
  unfold ngramCounts
  rw [counter_keys_card, ← Set.ncard_coe_finset]
  congr 1
  ext g
  simp only [Finset.coe_filter, List.mem_toFinset, Set.mem_ofPred_eq, (counter_spec _).2.1, mem_flat,
    novel]
  tauto

theorem total_eq (sents : List (List W)) (n : ℕ) :
    ((ngramCounts sents n).map Prod.snd).sum = positions n sents := by
  rw [ngramCounts, (counter_spec _).2.2.2, length_flat]

/-- **C80 (against references).** The reported number at size `n` is the number of distinct phrases of
the predictions that occur in no reference, divided by the number of places where a phrase starts. -/
theorem refUnique_eq (preds refs : List (List W)) (n : ℕ) :
    refUnique preds refs n = if ∀ s ∈ preds, s.length < n then none
      else some (((novel n preds refs).ncard : ℚ) / (positions n preds : ℚ)) := by
  simp only [refUnique, refUnique_num, total_eq, positions_zero]

theorem novel_le (preds refs : List (List W)) (n : ℕ) :
    (novel n preds refs).ncard ≤ positions n preds := by
  rw [← refUnique_num, ← length_flat]
  unfold ngramCounts
  rw [counter_keys_card]
  exact (Finset.card_filter_le _ _).trans (List.toFinset_card_le _)

/-- **C80 (range).** It lies in `[0, 1]`, and is zero exactly if every phrase of the predictions occurs
in the references. -/
theorem refUnique_range {preds refs : List (List W)} {n : ℕ} {q : ℚ}
    (h : refUnique preds refs n = some q) :
    0 ≤ q ∧ q ≤ 1 ∧ (q = 0 ↔ ∀ g : List W, g.length = n → Occurs g preds → Occurs g refs) := by
  rw [refUnique_eq] at h
  split_ifs at h with hs
  have hp : positions n preds ≠ 0 := fun e => hs ((positions_zero n preds).1 e)
  have hq := Option.some.inj h
  subst hq
  have hpos : (0 : ℚ) < positions n preds := by exact_mod_cast Nat.pos_of_ne_zero hp
  refine ⟨by positivity, ?_, ?_⟩
  · rw [div_le_one hpos]
    exact_mod_cast novel_le preds refs n
  · rw [div_eq_zero_iff, or_iff_left hpos.ne', Nat.cast_eq_zero,
      Set.ncard_eq_zero (novel_finite n preds refs), Set.eq_empty_iff_forall_notMem]
    refine forall_congr' fun g => ?_
    simp only [novel, Set.mem_ofPred_eq, not_and, not_not]

/-- **C80 (more references).** Adding references never raises it. -/
theorem refUnique_mono {preds refs refs' : List (List W)} {n : ℕ} {q q' : ℚ}
    (hsub : ∀ s ∈ refs, s ∈ refs') (h : refUnique preds refs n = some q)
    (h' : refUnique preds refs' n = some q') : q' ≤ q := by
  rw [refUnique_eq] at h h'
  split_ifs at h h' with hs
  rw [← Option.some.inj h, ← Option.some.inj h']
  have : (novel n preds refs').ncard ≤ (novel n preds refs).ncard := by
    refine Set.ncard_le_ncard (fun g hg => ⟨hg.1, hg.2.1, fun ⟨s, hs, hg'⟩ => hg.2.2 ⟨s, hsub s hs, hg'⟩⟩)
      (novel_finite n preds refs)
  gcongr

/-- **C80 (refuted: it is no fraction of phrases).** Distinct phrases are divided by occurrences, so a
prediction sharing no phrase with the references can score one half — or, repeating itself, as little
as `1/k`. -/
theorem refUnique_repeat (a b : W) (hab : a ≠ b) (k : ℕ) :
    refUnique [List.replicate (k + 1) a] [[b]] 1 = some (1 / ((k : ℚ) + 1)) := by
  rw [refUnique_eq, if_neg (by simp)]
  have h1 : novel 1 [List.replicate (k + 1) a] [[b]] = {[a]} := by
    ext g
    simp only [novel, Occurs, List.mem_singleton, exists_eq_left, Set.mem_ofPred_eq,
      Set.mem_singleton_iff]
    constructor
    · rintro ⟨h1, h2, -⟩
      obtain ⟨x, rfl⟩ := List.length_eq_one_iff.1 h1
      have := h2.subset (List.mem_singleton_self x)
      rw [(List.mem_replicate.1 this).2]
    · rintro rfl
      refine ⟨rfl, ⟨[], List.replicate k a, by simp [List.replicate_succ]⟩, fun h => hab ?_⟩
      simpa using h.subset (List.mem_singleton_self a)
  rw [h1]
  simp [positions]

/-- **C80 (within the predictions).** The self-uniqueness is the number of phrases that start at
exactly one place, divided by the number of places. -/
theorem selfUnique_eq (preds : List (List W)) (n : ℕ) :
    selfUnique preds n = if ∀ s ∈ preds, s.length < n then none
      else some (({g : List W | g.length = n ∧ occurrences g preds = 1}.ncard : ℚ) /
        positions n preds) := by
  have h : ((ngramCounts preds n).filter fun kv => decide (kv.2 = 1)).length =
      {g : List W | g.length = n ∧ occurrences g preds = 1}.ncard := by
    rw [ngramCounts, counter_once_card, ← Set.ncard_coe_finset]
    congr 1
    ext g
    simp only [Finset.coe_filter, List.mem_toFinset, Set.mem_ofPred_eq]
    constructor
    · rintro ⟨h1, h2⟩
      have := (mem_flat.1 h1).1
      exact ⟨this, by rw [← count_flat this]; exact h2⟩
    · rintro ⟨h1, h2⟩
      rw [← count_flat h1] at h2
      exact ⟨List.count_pos_iff.1 (by omega), h2⟩
  simp only [selfUnique, h, total_eq, positions_zero]

/-- **C80 (within the predictions, range).** In `[0, 1]`; one exactly if no phrase is repeated, zero
exactly if every phrase is. -/
theorem selfUnique_range {preds : List (List W)} {n : ℕ} {q : ℚ} (h : selfUnique preds n = some q) :
    0 ≤ q ∧ q ≤ 1 ∧ (q = 1 ↔ ∀ g : List W, g.length = n → occurrences g preds ≤ 1) ∧
    (q = 0 ↔ ∀ g : List W, g.length = n → occurrences g preds ≠ 1) := by
  have h0 := h
  rw [selfUnique_eq] at h0
  split_ifs at h0 with hs
  have hp : positions n preds ≠ 0 := fun e => hs ((positions_zero n preds).1 e)
  have hpos : (0 : ℚ) < positions n preds := by exact_mod_cast Nat.pos_of_ne_zero hp
  simp only [selfUnique, ngramCounts, counter_once_card, (counter_spec _).2.2.2] at h
  rw [if_neg (by rw [length_flat]; exact hp)] at h
  rw [← Option.some.inj h]
  set l := preds.flatMap (ngrams n) with hl
  have hlen : l.length = positions n preds := length_flat n preds
  have hle : (l.toFinset.filter fun k => l.count k = 1).card ≤ l.toFinset.card :=
    Finset.card_filter_le _ _
  have hle2 : l.toFinset.card ≤ l.length := List.toFinset_card_le l
  rw [hlen]
  have hone : ((l.toFinset.filter fun k => l.count k = 1).card = l.length) ↔ l.Nodup := by
    constructor
    · intro e
      exact Multiset.toFinset_card_eq_card_iff_nodup.1 (by
        have : l.toFinset.card = l.length := by omega
        simpa using this : (l : Multiset (List W)).toFinset.card = _)
    · intro hn
      rw [Finset.filter_true_of_mem, List.toFinset_card_of_nodup hn]
      intro g hg
      exact List.count_eq_one_of_mem hn (List.mem_toFinset.1 hg)
  refine ⟨by positivity, ?_, ?_, ?_⟩
  · rw [div_le_one hpos, ← hlen]
    exact_mod_cast hle.trans hle2
  · rw [div_eq_one_iff_eq hpos.ne', ← hlen, Nat.cast_inj, hone, List.nodup_iff_count_le_one]
    constructor
    · intro h g hg
      rw [← count_flat hg]; exact h g
    · intro h g
      by_cases hg : g.length = n
      · rw [hl, count_flat hg]; exact h g hg
      · rw [List.count_eq_zero.2 fun hm => hg (mem_flat.1 hm).1]; omega
  · rw [div_eq_zero_iff, or_iff_left hpos.ne', Nat.cast_eq_zero, Finset.card_eq_zero,
      Finset.filter_eq_empty_iff]
    constructor
    · intro h g hg e
      rw [← count_flat hg] at e
      exact h (x := g) (List.mem_toFinset.2 (List.count_pos_iff.1 (by rw [← hl] at e; omega))) e
    · intro h g hg e
      have := (mem_flat.1 (List.mem_toFinset.1 hg)).1
      exact h g this (by rw [← count_flat this]; exact e)

/-- Concrete case: of the five bigrams of "a b a b c d", "ab" occurs twice; the rest once. -/
example : selfUnique [["a", "b", "a", "b", "c", "d"]] 2 = some (3 / 5) ∧
    refUnique [["a", "b", "a", "b", "c", "d"]] [["a", "b", "c"]] 2 = some (2 / 5) := by
  constructor <;> decide +kernel

omit [DecidableEq W] in
theorem occurs_perm {l l' : List (List W)} (h : l.Perm l') (g : List W) : Occurs g l ↔ Occurs g l' :=
  exists_congr fun _ => and_congr_left' h.mem_iff

/-- **C80 (order).** The order of sentences and references does not matter. -/
theorem unique_perm {preds preds' refs refs' : List (List W)} (hp : preds.Perm preds')
    (hr : refs.Perm refs') (n : ℕ) :
    refUnique preds refs n = refUnique preds' refs' n ∧ selfUnique preds n = selfUnique preds' n := by
  have h1 : (∀ s ∈ preds, s.length < n) ↔ ∀ s ∈ preds', s.length < n :=
    forall_congr' fun s => imp_congr_left hp.mem_iff
  have h2 : positions n preds = positions n preds' := (hp.map _).sum_eq
  have h3 : novel n preds refs = novel n preds' refs' := by
    ext g; simp only [novel, Set.mem_ofPred_eq, occurs_perm hp, occurs_perm hr]
  have h4 : ∀ g : List W, occurrences g preds = occurrences g preds' := fun g => (hp.map _).sum_eq
  constructor
  · rw [refUnique_eq, refUnique_eq, h2, h3]; exact if_congr h1 rfl rfl
  · rw [selfUnique_eq, selfUnique_eq, h2]; simp only [h4]; exact if_congr h1 rfl rfl

theorem upTo_none (f : ℕ → Option ℚ) (m : ℕ) :
    upTo f m = none ↔ ∃ n, 1 ≤ n ∧ n ≤ m ∧ f n = none := by
  have key : ∀ l : List ℕ, l.mapM (fun i => f (i + 1)) = none ↔ ∃ i ∈ l, f (i + 1) = none := by
    intro l
    induction l with
    | nil => simp
    | cons a l ih =>
      rw [List.mapM_cons]
      cases ha : f (a + 1) with
      | none => simp [ha]
      | some v =>
        cases hl : l.mapM (fun i => f (i + 1)) with
        | none =>
          obtain ⟨i, hi, h⟩ := ih.1 hl
          simp only [Option.bind_eq_bind, Option.bind_some, Option.bind_none, true_iff]
          exact ⟨i, List.mem_cons_of_mem _ hi, h⟩
        | some v' =>
          have : ¬ ∃ i ∈ l, f (i + 1) = none := by rw [← ih, hl]; simp
          simp [ha]
          intro i hi h
          exact this ⟨i, hi, h⟩
  rw [upTo, key]
  constructor
  · rintro ⟨i, hi, h⟩
    exact ⟨i + 1, by omega, by have := List.mem_range.1 hi; omega, h⟩
  · rintro ⟨n, h1, h2, h⟩
    exact ⟨n - 1, List.mem_range.2 (by omega), by rwa [Nat.sub_add_cancel h1]⟩

theorem upTo_some {f : ℕ → Option ℚ} {m : ℕ} {l : List ℚ} (h : upTo f m = some l) :
    l.length = m ∧ ∀ i (hi : i < l.length), f (i + 1) = some l[i] := by
  have key : ∀ (ks : List ℕ) (l : List ℚ), ks.mapM (fun i => f (i + 1)) = some l →
      l.length = ks.length ∧ ∀ i (hi : i < l.length) (hi' : i < ks.length),
        f (ks[i] + 1) = some l[i] := by
    intro ks
    induction ks with
    | nil => intro l h; simp at h; subst h; simp
    | cons a ks ih =>
      intro l h
      rw [List.mapM_cons] at h
      cases ha : f (a + 1) with
      | none => simp [ha] at h
      | some v =>
        cases hl : ks.mapM (fun i => f (i + 1)) with
        | none => simp [ha, hl] at h
        | some v' =>
          simp only [ha, hl, Option.bind_eq_bind, Option.bind_some, Option.pure_def,
            Option.some.injEq] at h
          subst h
          obtain ⟨h1, h2⟩ := ih v' hl
          refine ⟨by simp [h1], fun i hi hi' => ?_⟩
          cases i with
          | zero => exact ha
          | succ i => exact h2 i (by simpa using hi) (by simpa using hi')
  obtain ⟨h1, h2⟩ := key _ _ h
  rw [List.length_range] at h1
  refine ⟨h1, fun i hi => ?_⟩
  have := h2 i hi (by simpa using h1 ▸ hi)
  simpa using this

/-- **C80 (when the evaluation fails).** If the BLEU numbers exist (C120 says when), the evaluation ends in a division by zero exactly if every
generated sentence has fewer than `max_n_grams` tokens (in particular if there is none). -/
theorem lmEvaluate_none (lower : W → W) (wikiRepl tbcRepl : List (W × W))
    {V : Type} (bleu self : List (List (List W)) → List (List W) → V) (sents wiki tbc : List (List W)) (maxN : ℕ) :
    lmEvaluate lower wikiRepl tbcRepl (fun r s => some (bleu r s)) (fun r s => some (self r s)) sents wiki tbc maxN = none ↔
      1 ≤ maxN ∧ ∀ s ∈ sents, s.length < maxN := by
  have hr : ∀ refs n, refUnique sents refs n = none ↔ ∀ s ∈ sents, s.length < n := by
    intro refs n; rw [refUnique_eq]; split_ifs with h
    · exact ⟨fun _ => h, fun _ => rfl⟩
    · exact ⟨fun e => (nomatch e), fun e => absurd e h⟩
  have hs : ∀ n, selfUnique sents n = none ↔ ∀ s ∈ sents, s.length < n := by
    intro n; rw [selfUnique_eq]; split_ifs with h
    · exact ⟨fun _ => h, fun _ => rfl⟩
    · exact ⟨fun e => (nomatch e), fun e => absurd e h⟩
  have hup : ∀ f : ℕ → Option ℚ, (∀ n, f n = none ↔ ∀ s ∈ sents, s.length < n) →
      (upTo f maxN = none ↔ 1 ≤ maxN ∧ ∀ s ∈ sents, s.length < maxN) := by
    intro f hf
    rw [upTo_none]
    constructor
    · rintro ⟨n, h1, h2, h3⟩
      exact ⟨by omega, fun s hs => ((hf n).1 h3 s hs).trans_le h2⟩
    · rintro ⟨h1, h2⟩
      exact ⟨maxN, h1, le_rfl, (hf maxN).2 h2⟩
  have h1 := hup _ (hr (lmPrepare lower true wikiRepl wiki))
  have h2 := hup _ (hr (lmPrepare lower true tbcRepl tbc))
  have h3 := hup _ hs
  rw [← h1]
  unfold lmEvaluate
  cases e1 : upTo (refUnique sents (lmPrepare lower true wikiRepl wiki)) maxN with
  | none => simp [e1]
  | some v1 =>
    cases e2 : upTo (refUnique sents (lmPrepare lower true tbcRepl tbc)) maxN with
    | none => exact absurd (h1.2 (h2.1 e2)) (by rw [e1]; simp)
    | some v2 =>
      cases e3 : upTo (selfUnique sents) maxN with
      | none => exact absurd (h1.2 (h3.1 e3)) (by rw [e1]; simp)
      | some v3 =>
        simp only [e1, e2, e3]
        split_ifs <;> simp

/-- Concrete case: one sentence of three tokens and sizes up to four. -/
example (bleu : List (List (List String)) → List (List String) → ℚ) (wiki tbc : List (List String)) :
    lmEvaluate id [] [] (fun r s => some (bleu r s)) (fun r s => some (bleu r s)) [["a", "b", "c"]] wiki tbc 4 = none :=
  (lmEvaluate_none _ _ _ _ _ _ _ _ _).2 ⟨by decide, by simp⟩

/-- **C80 (what is reported).** One number per size `1, …, max_n_grams` and corpus; the wiki numbers
against the wiki references, the others against the book references; every BLEU number compares every
sentence with its corpus; self-BLEU exactly if there are at least two sentences. -/
theorem lmEvaluate_some {lower : W → W} {wikiRepl tbcRepl : List (W × W)}
    {V : Type} {bleu self : List (List (List W)) → List (List W) → Option V} {sents wiki tbc : List (List W)} {maxN : ℕ}
    {r : LMResult V} (h : lmEvaluate lower wikiRepl tbcRepl bleu self sents wiki tbc maxN = some r) :
    r.uniqueWiki.length = maxN ∧ r.uniqueTbc.length = maxN ∧ r.uniqueSelf.length = maxN ∧
    (∀ n (hn : n < r.uniqueWiki.length), r.uniqueWiki[n] =
      (novel (n + 1) sents (lmPrepare lower true wikiRepl wiki)).ncard / positions (n + 1) sents) ∧
    (∀ n (hn : n < r.uniqueTbc.length), r.uniqueTbc[n] =
      (novel (n + 1) sents (lmPrepare lower true tbcRepl tbc)).ncard / positions (n + 1) sents) ∧
    (∀ n (hn : n < r.uniqueSelf.length), r.uniqueSelf[n] =
      ({g : List W | g.length = n + 1 ∧ occurrences g sents = 1}.ncard : ℚ) / positions (n + 1) sents) ∧
    (r.selfBleu.isSome ↔ 2 ≤ sents.length) ∧
    some r.tbcBleu = bleu (sents.map fun _ => lmPrepare lower true tbcRepl tbc) sents ∧
    some r.wikiBleu = bleu (sents.map fun _ => lmPrepare lower true wikiRepl wiki) sents ∧
    some r.tbcWikiBleu = bleu (sents.map fun _ =>
      lmPrepare lower true tbcRepl tbc ++ lmPrepare lower true wikiRepl wiki) sents ∧
    (∀ q, r.selfBleu = some q → some q = self (selfBleuRefs sents) sents) := by
  have hR : ∀ {refs n q}, refUnique sents refs n = some q →
      q = (novel n sents refs).ncard / positions n sents := by
    intro refs n q h
    rw [refUnique_eq] at h
    split_ifs at h
    exact (Option.some.inj h).symm
  have hS : ∀ {n q}, selfUnique sents n = some q →
      q = ({g : List W | g.length = n ∧ occurrences g sents = 1}.ncard : ℚ) / positions n sents := by
    intro n q h
    rw [selfUnique_eq] at h
    split_ifs at h
    exact (Option.some.inj h).symm
  simp only [lmEvaluate, Option.bind_eq_bind, Option.bind_eq_some_iff, Option.pure_def, Option.some.injEq] at h
  obtain ⟨tb, htb, wb, hwb, tw, htw, sb, hsb, v1, e1, v2, e2, v3, e3, rfl⟩ := h
  refine ⟨(upTo_some e1).1, (upTo_some e2).1, (upTo_some e3).1,
    fun n hn => hR ((upTo_some e1).2 n hn), fun n hn => hR ((upTo_some e2).2 n hn),
    fun n hn => hS ((upTo_some e3).2 n hn), ?_, ?_, ?_, ?_, ?_⟩
  · dsimp only
    split_ifs at hsb with hl
    · obtain ⟨q, -, rfl⟩ := Option.map_eq_some_iff.1 hsb
      simp; omega
    · obtain rfl := Option.some.inj hsb
      simp; omega
  · rw [List.map_const', htb]
  · rw [List.map_const', hwb]
  · rw [List.map_const', htw]
  · rintro q hq
    dsimp only at hq
    subst hq
    split_ifs at hsb with hl
    · obtain ⟨q', h1, h2⟩ := Option.map_eq_some_iff.1 hsb
      rw [h1, h2]
    · exact absurd (Option.some.inj hsb) (by simp)

omit [DecidableEq W] in
/-- **C80 (references of self-BLEU).** Sentence `i` is compared with all the others, in order. -/
theorem selfBleuRefs_eq (sents : List (List W)) :
    selfBleuRefs sents = (List.range sents.length).map fun i => sents.eraseIdx i := by
  unfold selfBleuRefs
  refine List.map_congr_left fun i _ => ?_
  have key : ∀ (l : List (List W)) (m i : ℕ),
      ((l.zipIdx m).filter fun sj => decide (sj.2 ≠ m + i)).map Prod.fst = l.eraseIdx i := by
    intro l
    induction l with
    | nil => simp
    | cons a l ih =>
      intro m i
      rw [List.zipIdx_cons, List.filter_cons]
      cases i with
      | zero =>
        simp only [add_zero, ne_eq, not_true_eq_false, decide_false, Bool.false_eq_true, if_false,
          List.eraseIdx_zero, List.tail_cons]
        rw [List.filter_eq_self.2]
        · simp
        · intro sj hsj
          have := List.le_snd_of_mem_zipIdx hsj
          simp; omega
      | succ i =>
        have h := ih (m + 1) i
        rw [show m + 1 + i = m + (i + 1) by omega] at h
        rw [if_pos (by simp), List.map_cons, h, List.eraseIdx_cons_succ]
  simpa using key sents 0 i

/-- Tokens of prepared references are lower-cased tokens or replacement values. -/
theorem lmPrepare_tokens (lower : W → W) (repl : List (W × W)) (data : List (List W)) (t : W)
    (h : ∃ s ∈ lmPrepare lower true repl data, t ∈ s) :
    (∃ s ∈ data, ∃ u ∈ s, t = lower u) ∨ ∃ kv ∈ repl, t = kv.2 := by
  have key : ∀ (repl : List (W × W)) (P : W → Prop) (d : List (List W)),
      (∀ s ∈ d, ∀ t ∈ s, P t) → ∀ s ∈ repl.foldl (fun data kv => data.map fun sent => sent.map fun t =>
        if t ≠ kv.1 then t else kv.2) d, ∀ t ∈ s, P t ∨ ∃ kv ∈ repl, t = kv.2 := by
    intro repl
    induction repl with
    | nil => intro P d h s hs t ht; exact Or.inl (h s hs t ht)
    | cons kv repl ih =>
      intro P d h s hs t ht
      rw [List.foldl_cons] at hs
      have h2 : ∀ s ∈ d.map (fun sent => sent.map fun t => if t ≠ kv.1 then t else kv.2), ∀ t ∈ s,
          P t ∨ t = kv.2 := by
        intro s hs t ht
        obtain ⟨s', hs', rfl⟩ := List.mem_map.1 hs
        obtain ⟨t', ht', rfl⟩ := List.mem_map.1 ht
        split_ifs with e
        · exact Or.inl (h s' hs' t' ht')
        · exact Or.inr rfl
      rcases ih (fun t => P t ∨ t = kv.2) _ h2 s hs t ht with (h3 | h3) | ⟨kv', h3, h4⟩
      · exact Or.inl h3
      · exact Or.inr ⟨kv, by simp, h3⟩
      · exact Or.inr ⟨kv', by simp [h3], h4⟩
  obtain ⟨s, hs, ht⟩ := h
  refine key repl (fun t => ∃ s ∈ data, ∃ u ∈ s, t = lower u) _ ?_ s hs t ht
  intro s hs t ht
  simp only [if_true] at hs
  obtain ⟨s', hs', rfl⟩ := List.mem_map.1 hs
  obtain ⟨u, hu, rfl⟩ := List.mem_map.1 ht
  exact ⟨s', hs', u, hu, rfl⟩

/-- **C80 (refuted: case).** References are lower-cased, predictions are not: every phrase of a
prediction with a token that is no lower-cased token counts as new, whatever the references — even if
the prediction is itself a reference. -/
theorem cased_always_novel (lower : W → W) (repl : List (W × W)) (data preds : List (List W))
    {g : List W} {t : W} (ht : t ∈ g) (hlow : ∀ u, lower u ≠ t) (hrep : ∀ kv ∈ repl, kv.2 ≠ t)
    (hg : Occurs g preds) : g ∈ novel g.length preds (lmPrepare lower true repl data) := by
  refine ⟨rfl, hg, ?_⟩
  rintro ⟨s, hs, hgs⟩
  rcases lmPrepare_tokens lower repl data t ⟨s, hs, hgs.subset ht⟩ with ⟨_, _, u, _, h⟩ | ⟨kv, h1, h2⟩
  · exact hlow u h.symm
  · exact hrep kv h1 h2.symm

/-- Concrete case: the prediction "The cat" against the reference "The cat". -/
example : refUnique [["The", "cat"]]
    (lmPrepare (fun w => if w = "The" then "the" else w) true [] [["The", "cat"]]) 2 = some 1 := by
  decide +kernel

/-- **C80 (replacements).** If no replacement value is itself replaced and the keys differ, applying the
replacements one after the other is replacing every token once. -/
theorem lmPrepare_eq (lower : W → W) (repl : List (W × W)) (data : List (List W))
    (hv : ∀ kv ∈ repl, ∀ kv' ∈ repl, kv.2 ≠ kv'.1) :
    lmPrepare lower true repl data = data.map fun s => s.map fun t =>
      ((repl.find? fun kv => decide (kv.1 = lower t)).map Prod.snd).getD (lower t) := by
  have key : ∀ (repl : List (W × W)), (∀ kv ∈ repl, ∀ kv' ∈ repl, kv.2 ≠ kv'.1) → ∀ t : W,
      repl.foldl (fun t kv => if t ≠ kv.1 then t else kv.2) t =
        ((repl.find? fun kv => decide (kv.1 = t)).map Prod.snd).getD t := by
    intro repl
    induction repl with
    | nil => simp
    | cons kv repl ih =>
      intro hv t
      have ih' := ih fun a ha b hb => hv a (by simp [ha]) b (by simp [hb])
      rw [List.foldl_cons, List.find?_cons]
      by_cases e : kv.1 = t
      · subst e
        rw [if_neg (by simp), ih']
        have : repl.find? (fun kv' => decide (kv'.1 = kv.2)) = none := by
          rw [List.find?_eq_none]
          intro x hx
          simpa using fun e => hv kv (by simp) x (by simp [hx]) e.symm
        simp [this]
      · rw [if_pos (fun e' => e e'.symm), ih']
        simp [e]
  have hfold : ∀ (repl : List (W × W)) (d : List (List W)),
      repl.foldl (fun data kv => data.map fun sent => sent.map fun t => if t ≠ kv.1 then t else kv.2) d =
        d.map fun s => s.map fun t => repl.foldl (fun t kv => if t ≠ kv.1 then t else kv.2) t := by
    intro repl
    induction repl with
    | nil => simp
    | cons kv repl ih =>
      intro d
      rw [List.foldl_cons, ih, List.map_map]
      refine List.map_congr_left fun s _ => ?_
      simp only [Function.comp, List.map_map, List.foldl_cons]
      rfl
  unfold lmPrepare
  rw [hfold]
  simp only [if_true, List.map_map]
  refine List.map_congr_left fun s _ => ?_
  simp only [Function.comp, List.map_map]
  refine List.map_congr_left fun t _ => ?_
  simp only [Function.comp]
  exact key repl hv (lower t)

/-- Concrete case: the quotes of the book corpus. -/
example : lmPrepare id true [("``", "\""), ("''", "\"")] [["``", "hi", "''"]] = [["\"", "hi", "\""]] := by
  decide +kernel

end Discs
