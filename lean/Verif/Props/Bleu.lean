import Verif.Lemmas.Bleu

/-!
# Property C120: the BLEU numbers of the text evaluation measure similarity

A score lies between zero and one; it is zero exactly if no token is found and one exactly if every phrase is, at
sufficient length.  Three expectations fail: copies of references with fewer than four tokens score almost zero, further
references can lower a score, and the printed three-token score does not look at phrases of three tokens.
-/

namespace Discs

open Spec Finset

variable {W : Type*} [DecidableEq W]

-- phrases are compared with the equality test derived from decidable equality
attribute [-instance] List.instBEq

/-! ## What is computed -/

theorem rpow_exp {a : ℝ} (ha : 0 < a) (w : ℝ) : a ^ w = Real.exp (w * Real.log a) := by
  rw [Real.rpow_def_of_pos ha, mul_comm]

/-- **C120 (refinement).** The three numbers the evaluator prints; the last one is the result.  The second is not the
score for three tokens. -/
theorem lmBleus_eq {c : List (List (List W) × List W)} (h0 : c ≠ []) (hc : ∀ p ∈ c, p.1 ≠ []) :
    lmBleus (c.map Prod.fst) (c.map Prod.snd) = some [bleu2 c,
      if corpusMatched 1 c = 0 then 0
        else brevity (refTokens c) (tokens c) * (precision 1 c * precision 2 c) ^ (1 / 3 : ℝ), bleu4 c] := by
  have p1 := precision_pos h0 1
  have p2 := precision_pos h0 2
  have p3 := precision_pos h0 3
  have p4 := precision_pos h0 4
  rw [lmBleus, corpusBleu_eq h0 hc ⟨[1 / 2, 1 / 2], by simp [lmWeights], by simp⟩]
  simp only [lmWeights, List.map_cons, List.map_nil, List.zipIdx_cons, List.zipIdx_nil, List.sum_cons, List.sum_nil, bleu2,
    bleu4, Nat.zero_add, Nat.reduceAdd]
  rw [rpow_exp (mul_pos p1 p2), rpow_exp (mul_pos p1 p2), rpow_exp (by positivity), Real.log_mul p1.ne' p2.ne',
    Real.log_mul (by positivity) p4.ne', Real.log_mul (by positivity) p3.ne', Real.log_mul p1.ne' p2.ne']
  congr 5 <;> ring_nf

theorem lmBleu4_eq {c : List (List (List W) × List W)} (h0 : c ≠ []) (hc : ∀ p ∈ c, p.1 ≠ []) :
    lmBleu4 (c.map Prod.fst) (c.map Prod.snd) = some (bleu4 c) := by
  rw [lmBleu4, lmBleus_eq h0 hc]
  rfl

theorem defaultBleu_eq {c : List (List (List W) × List W)} (h0 : c ≠ []) (hc : ∀ p ∈ c, p.1 ≠ []) :
    defaultBleu (c.map Prod.fst) (c.map Prod.snd) = some (bleu4 c) := by
  have p1 := precision_pos h0 1
  have p2 := precision_pos h0 2
  have p3 := precision_pos h0 3
  have p4 := precision_pos h0 4
  rw [defaultBleu, corpusBleu_eq h0 hc ⟨[1 / 4, 1 / 4, 1 / 4, 1 / 4], by simp, by simp⟩]
  simp only [List.map_cons, List.map_nil, List.zipIdx_cons, List.zipIdx_nil, List.sum_cons, List.sum_nil,
    bleu4, Nat.zero_add, Nat.reduceAdd]
  rw [rpow_exp (by positivity), Real.log_mul (by positivity) p4.ne', Real.log_mul (by positivity) p3.ne',
    Real.log_mul p1.ne' p2.ne']
  simp only [Option.bind_some, List.getElem?_cons_zero]
  congr 4
  ring

/-! ## Range and extreme values -/

/-- **C120 (range).** -/
theorem bleu4_range {c : List (List (List W) × List W)} (h0 : c ≠ []) : 0 ≤ bleu4 c ∧ bleu4 c ≤ 1 := by
  have p1 := precision_pos h0 1
  have p2 := precision_pos h0 2
  have p3 := precision_pos h0 3
  have p4 := precision_pos h0 4
  unfold bleu4
  split_ifs with h
  · simp
  · have hb := brevity_pos (refTokens c) (tokens c)
    refine ⟨by positivity, mul_le_one₀ (brevity_le _ (tokens_pos h)) (by positivity) (Real.rpow_le_one (by positivity) ?_
      (by norm_num))⟩
    exact mul_le_one₀ (mul_le_one₀ (mul_le_one₀ (precision_le h0 1) p2.le (precision_le h0 2)) p3.le (precision_le h0 3))
      p4.le (precision_le h0 4)

theorem occIn_pos {g s : List W} : 0 < occIn g s ↔ g <:+: s := by
  rw [occIn, Finset.card_pos]
  constructor
  · rintro ⟨k, hk⟩
    exact (Finset.mem_filter.1 hk).2.isInfix.trans (List.drop_suffix _ _).isInfix
  · rintro ⟨a, b, rfl⟩
    refine ⟨a.length, Finset.mem_filter.2 ⟨Finset.mem_range.2 (by simp only [List.length_append]; omega), ?_⟩⟩
    simp

theorem le_bestOcc {g : List W} {refs : List (List W)} {k : ℕ} (hk : 0 < k) :
    k ≤ bestOcc g refs ↔ ∃ r ∈ refs, k ≤ occIn g r := by
  induction refs with
  | nil => simp [bestOcc]; omega
  | cons r refs ih =>
    simp only [bestOcc, List.map_cons, List.foldr_cons, le_max_iff, List.mem_cons, exists_eq_or_imp] at ih ⊢
    rw [ih]

theorem matched_eq_zero {n : ℕ} {refs : List (List W)} {s : List W} :
    matched n refs s = 0 ↔ ∀ g, g.length = n → g <:+: s → ∀ r ∈ refs, ¬ g <:+: r := by
  rw [matched, Finset.sum_eq_zero_iff]
  constructor
  · intro h g hg hs r hr hgr
    have h1 := h g (mem_phrases.2 (mem_ngrams.2 ⟨hg, hs⟩))
    have h2 := occIn_pos.2 hs
    have h3 : 1 ≤ bestOcc g refs := (le_bestOcc one_pos).2 ⟨r, hr, occIn_pos.2 hgr⟩
    omega
  · intro h g hg
    obtain ⟨h1, h2⟩ := mem_ngrams.1 (mem_phrases.1 hg)
    have : ¬ 1 ≤ bestOcc g refs := by
      rw [le_bestOcc one_pos]
      rintro ⟨r, hr, h3⟩
      exact h g h1 h2 r hr (occIn_pos.1 h3)
    omega

theorem matched_full {n : ℕ} {refs : List (List W)} {s : List W} :
    matched n refs s = max 1 (s.length + 1 - n) ↔
      n ≤ s.length ∧ ∀ g, g.length = n → g <:+: s → ∃ r ∈ refs, occIn g s ≤ occIn g r := by
  constructor
  · intro h
    have h1 := matched_le n refs s
    have hl : n ≤ s.length := by omega
    refine ⟨hl, fun g hg hs => ?_⟩
    rw [← le_bestOcc (occIn_pos.2 hs)]
    have h2 : ∑ g ∈ phrases n s, min (occIn g s) (bestOcc g refs) = ∑ g ∈ phrases n s, occIn g s := by
      rw [sum_occIn, ← matched]; omega
    have := (Finset.sum_eq_sum_iff_of_le fun g _ => min_le_left _ _).1 h2 g (mem_phrases.2 (mem_ngrams.2 ⟨hg, hs⟩))
    omega
  · rintro ⟨hl, h⟩
    rw [max_eq_right (by omega), ← sum_occIn n s, matched]
    refine Finset.sum_congr rfl fun g hg => min_eq_left ?_
    obtain ⟨h1, h2⟩ := mem_ngrams.1 (mem_phrases.1 hg)
    exact (le_bestOcc (occIn_pos.2 h2)).2 (h g h1 h2)

omit [DecidableEq W] in
theorem singleton_infix {t : W} {s : List W} : [t] <:+: s ↔ t ∈ s := by
  constructor
  · intro h; exact h.subset (by simp)
  · intro h
    obtain ⟨a, b, rfl⟩ := List.append_of_mem h
    exact ⟨a, b, by simp⟩

theorem corpusMatched_one_zero {c : List (List (List W) × List W)} :
    corpusMatched 1 c = 0 ↔ ∀ p ∈ c, ∀ t ∈ p.2, ∀ r ∈ p.1, t ∉ r := by
  rw [corpusMatched, List.sum_eq_zero_iff]
  simp only [List.mem_map, forall_exists_index, and_imp, forall_apply_eq_imp_iff₂]
  refine forall₂_congr fun p _ => ?_
  rw [matched_eq_zero]
  constructor
  · intro h t ht r hr htr
    exact h [t] rfl (singleton_infix.2 ht) r hr (singleton_infix.2 htr)
  · intro h g hg hs r hr hgr
    obtain ⟨t, rfl⟩ := List.length_eq_one_iff.1 hg
    exact h t (singleton_infix.1 hs) r hr (singleton_infix.1 hgr)

/-- **C120 (zero).** The score is zero exactly if no token of a sentence occurs in one of its references. -/
theorem bleu4_eq_zero {c : List (List (List W) × List W)} (h0 : c ≠ []) :
    bleu4 c = 0 ↔ ∀ p ∈ c, ∀ t ∈ p.2, ∀ r ∈ p.1, t ∉ r := by
  rw [← corpusMatched_one_zero, bleu4]
  split_ifs with h
  · simp [h]
  · have p1 := precision_pos h0 1
    have p2 := precision_pos h0 2
    have p3 := precision_pos h0 3
    have p4 := precision_pos h0 4
    have hb := brevity_pos (refTokens c) (tokens c)
    exact ⟨fun e => absurd e (by positivity), fun e => absurd e h⟩

theorem corpus_full {n : ℕ} {c : List (List (List W) × List W)} :
    corpusMatched n c = corpusPlaces n c ↔
      ∀ p ∈ c, n ≤ p.2.length ∧ ∀ g, g.length = n → g <:+: p.2 → ∃ r ∈ p.1, occIn g p.2 ≤ occIn g r := by
  induction c with
  | nil => simp [corpusMatched, corpusPlaces]
  | cons p c ih =>
    have h1 := (matched_le n p.1 p.2).trans (le_max_right 1 _)
    have h2 := corpusMatched_le n c
    rw [List.forall_mem_cons, ← ih, ← matched_full]
    simp only [corpusMatched, corpusPlaces, List.map_cons, List.sum_cons] at h2 ⊢
    omega

theorem mul_eq_one_of_le {a b : ℝ} (ha : 0 < a) (ha1 : a ≤ 1) (hb : 0 < b) (hb1 : b ≤ 1) : a * b = 1 ↔ a = 1 ∧ b = 1 := by
  constructor
  · intro h
    constructor <;> nlinarith
  · rintro ⟨rfl, rfl⟩; norm_num

/-- **C120 (one).** The score is one exactly if every sentence has at least four tokens, every phrase of one to four
tokens occurs in one of the references as often as in the sentence, and the sentences are together at least as long as
their nearest references. -/
theorem bleu4_eq_one {c : List (List (List W) × List W)} (h0 : c ≠ []) :
    bleu4 c = 1 ↔ (∀ p ∈ c, 4 ≤ p.2.length ∧ ∀ g, 1 ≤ g.length → g.length ≤ 4 → g <:+: p.2 →
      ∃ r ∈ p.1, occIn g p.2 ≤ occIn g r) ∧ refTokens c ≤ tokens c := by
  have hp := fun n => precision_pos h0 n
  have hl := fun n => precision_le h0 n
  have hfull : (∀ p ∈ c, 4 ≤ p.2.length ∧ ∀ g, 1 ≤ g.length → g.length ≤ 4 → g <:+: p.2 →
      ∃ r ∈ p.1, occIn g p.2 ≤ occIn g r) ↔
      ((precision 1 c = 1 ∧ precision 2 c = 1) ∧ precision 3 c = 1) ∧ precision 4 c = 1 := by
    simp only [precision_eq_one h0, corpus_full]
    constructor
    · intro h
      refine ⟨⟨⟨?_, ?_⟩, ?_⟩, ?_⟩ <;> intro p hp <;> obtain ⟨h1, h2⟩ := h p hp <;>
        refine ⟨by omega, fun g hg => h2 g (by omega) (by omega)⟩
    · rintro ⟨⟨⟨h1, h2⟩, h3⟩, h4⟩ p hp
      refine ⟨(h4 p hp).1, fun g hg1 hg4 => ?_⟩
      have : g.length = 1 ∨ g.length = 2 ∨ g.length = 3 ∨ g.length = 4 := by omega
      rcases this with e | e | e | e
      · exact (h1 p hp).2 g e
      · exact (h2 p hp).2 g e
      · exact (h3 p hp).2 g e
      · exact (h4 p hp).2 g e
  rw [hfull, bleu4]
  have l2 : precision 1 c * precision 2 c ≤ 1 := mul_le_one₀ (hl 1) (hp 2).le (hl 2)
  have l3 : precision 1 c * precision 2 c * precision 3 c ≤ 1 := mul_le_one₀ l2 (hp 3).le (hl 3)
  have l4 : precision 1 c * precision 2 c * precision 3 c * precision 4 c ≤ 1 := mul_le_one₀ l3 (hp 4).le (hl 4)
  have q2 : 0 < precision 1 c * precision 2 c := mul_pos (hp 1) (hp 2)
  have q3 := mul_pos q2 (hp 3)
  have q4 := mul_pos q3 (hp 4)
  split_ifs with h
  · refine ⟨fun e => absurd e (by norm_num), ?_⟩
    rintro ⟨⟨⟨⟨e, -⟩, -⟩, -⟩, -⟩
    rw [precision_eq_one h0, h] at e
    exact absurd e (corpusPlaces_pos h0 1).ne
  · have ht := tokens_pos h
    have hone : (precision 1 c * precision 2 c * precision 3 c * precision 4 c) ^ (1 / 4 : ℝ) = 1 ↔
        precision 1 c * precision 2 c * precision 3 c * precision 4 c = 1 := by
      have := Real.rpow_left_inj q4.le zero_le_one (show (1 / 4 : ℝ) ≠ 0 by norm_num)
      rwa [Real.one_rpow] at this
    rw [mul_eq_one_of_le (brevity_pos _ _) (brevity_le _ ht) (by positivity) (Real.rpow_le_one q4.le l4 (by norm_num)),
      brevity_eq_one _ ht, hone, mul_eq_one_of_le q3 l3 (hp 4) (hl 4),
      mul_eq_one_of_le q2 l2 (hp 3) (hl 3), mul_eq_one_of_le (hp 1) (hl 1) (hp 2) (hl 2)]
    tauto

theorem closest_self {m : ℕ} {L : List ℕ} (h : m ∈ L) : closest m L = m := by
  have h1 := closest_spec m (L := L) (List.ne_nil_of_mem h)
  have h2 := h1.2 m h
  simp only [sub_self, abs_zero] at h2
  have : (0 : ℤ) ≤ |(closest m L : ℤ) - m| := abs_nonneg _
  rcases h2 with h2 | ⟨h2, -⟩
  · omega
  · rw [abs_eq_zero] at h2; omega

/-- **C120 (copies).** Sentences of at least four tokens that are all among their references score one. -/
theorem bleu4_copies {c : List (List (List W) × List W)} (h0 : c ≠ []) (h4 : ∀ p ∈ c, 4 ≤ p.2.length)
    (hc : ∀ p ∈ c, p.2 ∈ p.1) : bleu4 c = 1 := by
  refine (bleu4_eq_one h0).2 ⟨fun p hp => ⟨h4 p hp, fun g _ _ _ => ⟨p.2, hc p hp, le_rfl⟩⟩, le_of_eq ?_⟩
  rw [refTokens, tokens]
  congr 1
  exact List.map_congr_left fun p hp => closest_self (List.mem_map_of_mem (hc p hp))

/-- **C120 (refuted: short copies).** If no sentence has four tokens the score is below `2 ^ -255`, even if every sentence
is a reference. -/
theorem bleu4_short {c : List (List (List W) × List W)} (h0 : c ≠ []) (h4 : ∀ p ∈ c, p.2.length < 4) :
    bleu4 c < (2 : ℝ) ^ (-255 : ℤ) := by
  have hp := fun n => precision_pos h0 n
  have hl := fun n => precision_le h0 n
  have e4 : corpusMatched 4 c = 0 := by
    rw [corpusMatched, List.sum_eq_zero_iff]
    intro x hx
    obtain ⟨p, hp, rfl⟩ := List.mem_map.1 hx
    have := matched_le 4 p.1 p.2
    have := h4 p hp
    omega
  unfold bleu4
  split_ifs with h
  · positivity
  · have l3 : precision 1 c * precision 2 c * precision 3 c ≤ 1 :=
      mul_le_one₀ (mul_le_one₀ (hl 1) (hp 2).le (hl 2)) (hp 3).le (hl 3)
    have q3 : 0 < precision 1 c * precision 2 c * precision 3 c := mul_pos (mul_pos (hp 1) (hp 2)) (hp 3)
    have e : precision 4 c = (2 : ℝ) ^ (-1022 : ℤ) := by rw [precision, if_pos e4]
    have hpow : (precision 1 c * precision 2 c * precision 3 c * precision 4 c) ^ (1 / 4 : ℝ) < (2 : ℝ) ^ (-255 : ℤ) := by
      have h1 : precision 1 c * precision 2 c * precision 3 c * precision 4 c ≤ (2 : ℝ) ^ (-1022 : ℤ) := by
        rw [e]; exact mul_le_of_le_one_left smallest_pos.le l3
      refine (Real.rpow_le_rpow (mul_pos q3 (hp 4)).le h1 (by norm_num)).trans_lt ?_
      rw [← Real.rpow_intCast, ← Real.rpow_intCast, ← Real.rpow_mul (by norm_num)]
      exact Real.rpow_lt_rpow_of_exponent_lt (by norm_num) (by norm_num)
    have hpos : 0 < (precision 1 c * precision 2 c * precision 3 c * precision 4 c) ^ (1 / 4 : ℝ) :=
      Real.rpow_pos_of_pos (mul_pos q3 (hp 4)) _
    exact (mul_le_of_le_one_left hpos.le (brevity_le _ (tokens_pos h))).trans_lt hpow

/-! ## More references -/

theorem bestOcc_append (g : List W) (refs extra : List (List W)) : bestOcc g refs ≤ bestOcc g (refs ++ extra) := by
  rcases Nat.eq_zero_or_pos (bestOcc g refs) with e | e
  · omega
  · obtain ⟨r, hr, h⟩ := (le_bestOcc e).1 le_rfl
    exact (le_bestOcc e).2 ⟨r, List.mem_append_left _ hr, h⟩

/-- The corpus with further references for every sentence. -/
def Spec.withRefs (extra : List (List W)) (c : List (List (List W) × List W)) : List (List (List W) × List W) :=
  c.map fun p => (p.1 ++ extra, p.2)

theorem corpusMatched_mono (extra : List (List W)) (c : List (List (List W) × List W)) (n : ℕ) :
    corpusMatched n c ≤ corpusMatched n (withRefs extra c) := by
  rw [corpusMatched, corpusMatched, withRefs, List.map_map]
  exact List.sum_le_sum fun p _ => Finset.sum_le_sum fun g _ => min_le_min_left _ (bestOcc_append g p.1 extra)

omit [DecidableEq W] in
theorem corpusPlaces_le (n : ℕ) (c : List (List (List W) × List W)) : corpusPlaces n c ≤ tokens c + c.length := by
  induction c with
  | nil => simp [corpusPlaces, tokens]
  | cons p c ih =>
    simp only [corpusPlaces, tokens, List.map_cons, List.sum_cons, List.length_cons] at ih ⊢
    omega

omit [DecidableEq W] in
theorem tokens_withRefs (extra : List (List W)) (c : List (List (List W) × List W)) :
    tokens (withRefs extra c) = tokens c := by
  rw [tokens, tokens, withRefs, List.map_map]; rfl

omit [DecidableEq W] in
theorem corpusPlaces_withRefs (n : ℕ) (extra : List (List W)) (c : List (List (List W) × List W)) :
    corpusPlaces n (withRefs extra c) = corpusPlaces n c := by
  rw [corpusPlaces, corpusPlaces, withRefs, List.map_map]; rfl

theorem smallest_mul_le (N : ℕ) {P : ℕ} (h : P ≤ 2 ^ N) : (2 : ℝ) ^ (-(N : ℤ)) * P ≤ 1 := by
  rw [zpow_neg, zpow_natCast, inv_mul_le_iff₀ (by positivity), mul_one]
  exact_mod_cast h

theorem precision_mono (extra : List (List W)) {c : List (List (List W) × List W)} (h0 : c ≠ [])
    (hsize : tokens c + c.length ≤ 2 ^ 1022) (n : ℕ) : precision n c ≤ precision n (withRefs extra c) := by
  have h1 := corpusMatched_mono extra c n
  have hpos := corpusPlaces_pos h0 n
  have hpos' : (0 : ℝ) < corpusPlaces n c := by exact_mod_cast hpos
  rw [precision, precision, corpusPlaces_withRefs]
  by_cases h : corpusMatched n (withRefs extra c) = 0
  · rw [if_pos h, if_pos (by omega)]
  · rw [if_neg h]
    split_ifs with h'
    · have h2 : (1 : ℝ) ≤ corpusMatched n (withRefs extra c) := by exact_mod_cast Nat.pos_of_ne_zero h
      have h3 := smallest_mul_le 1022 ((corpusPlaces_le n c).trans hsize)
      rw [Nat.cast_ofNat] at h3
      rw [le_div_iff₀ hpos']
      exact h3.trans h2
    · have : (corpusMatched n c : ℝ) ≤ corpusMatched n (withRefs extra c) := Nat.cast_le.2 h1
      exact div_le_div_of_nonneg_right this hpos'.le

/-- **C120 (more references).** Further references do not lower the score as long as the nearest references are not longer
together than before, or not longer than the sentences. -/
theorem bleu4_more_refs_partial (extra : List (List W)) {c : List (List (List W) × List W)} (h0 : c ≠ [])
    (hsize : tokens c + c.length ≤ 2 ^ 1022) (hlen : refTokens (withRefs extra c) ≤ max (tokens c) (refTokens c)) :
    bleu4 c ≤ bleu4 (withRefs extra c) := by
  have h0' : withRefs extra c ≠ [] := by simpa [withRefs] using h0
  unfold bleu4
  by_cases h : corpusMatched 1 c = 0
  · rw [if_pos h]
    exact (bleu4_range h0').1
  · have h1 := corpusMatched_mono extra c 1
    have ht := tokens_pos h
    rw [if_neg h, if_neg (by omega), tokens_withRefs]
    have hm := fun n => precision_mono extra h0 hsize n
    have hp := fun n => precision_pos h0 n
    have hp' := fun n => precision_pos h0' n
    have hbp : brevity (refTokens c) (tokens c) ≤ brevity (refTokens (withRefs extra c)) (tokens c) := by
      rcases le_max_iff.1 hlen with e | e
      · rw [(brevity_eq_one _ ht).2 e]; exact brevity_le _ ht
      · exact brevity_anti ht e
    refine mul_le_mul hbp (Real.rpow_le_rpow ?_ ?_ (by norm_num)) ?_ (brevity_pos _ _).le
    · have := hp 1; have := hp 2; have := hp 3; have := hp 4
      positivity
    · have := hp 1; have := hp 2; have := hp 3; have := hp 4
      have := hp' 1; have := hp' 2; have := hp' 3; have := hp' 4
      exact mul_le_mul (mul_le_mul (mul_le_mul (hm 1) (hm 2) (by positivity) (by positivity)) (hm 3) (by positivity)
        (by positivity)) (hm 4) (by positivity) (by positivity)
    · have := hp 1; have := hp 2; have := hp 3; have := hp 4
      positivity

theorem bestOcc_junk {g s : List W} (hg : g <:+: s) (hg0 : g ≠ []) {refs : List (List W)} {j : List W}
    (hj : ∀ t ∈ s, t ∉ j) : bestOcc g (refs ++ [j]) = bestOcc g refs := by
  have e : occIn g j = 0 := by
    by_contra h
    obtain ⟨t, ht⟩ := List.exists_mem_of_ne_nil g hg0
    exact hj t (hg.subset ht) ((occIn_pos.1 (Nat.pos_of_ne_zero h)).subset ht)
  rw [bestOcc, bestOcc, List.map_append, List.foldr_append]
  simp [e]

theorem closest_eq {m r : ℕ} {L : List ℕ} (h : IsClosest m L r) : closest m L = r :=
  isClosest_unique (closest_spec m (by rintro rfl; simp [IsClosest] at h)) h

/-- **C120 (refuted: more references).** One further reference without any token of the sentence, one token longer than the
sentence while all other references are at least two tokens shorter, lowers the score by the factor `exp (-1 / length)`. -/
theorem bleu4_junk {refs : List (List W)} (hr : refs ≠ []) {s j : List W} (hlen : ∀ r ∈ refs, r.length + 2 ≤ s.length)
    (hj : ∀ t ∈ s, t ∉ j) (hjl : j.length = s.length + 1) :
    bleu4 [(refs ++ [j], s)] = Real.exp (-1 / s.length) * bleu4 [(refs, s)] := by
  obtain ⟨r0, hr0⟩ := List.exists_mem_of_ne_nil refs hr
  have hs : 0 < s.length := by have := hlen r0 hr0; omega
  have hM : ∀ n, 1 ≤ n → corpusMatched n [(refs ++ [j], s)] = corpusMatched n [(refs, s)] := by
    intro n hn
    simp only [corpusMatched, List.map_cons, List.map_nil, matched]
    congr 2
    refine Finset.sum_congr rfl fun g hg => ?_
    obtain ⟨h1, h2⟩ := mem_ngrams.1 (mem_phrases.1 hg)
    rw [bestOcc_junk h2 (by rintro rfl; simp at h1; omega) hj]
  have hP : ∀ n, 1 ≤ n → precision n [(refs ++ [j], s)] = precision n [(refs, s)] := by
    intro n hn
    rw [precision, precision, hM n hn]
    rfl
  have hT : tokens [(refs, s)] = s.length := by simp [tokens]
  have hT' : tokens [(refs ++ [j], s)] = s.length := by simp [tokens]
  have hR : refTokens [(refs, s)] ≤ s.length := by
    have h := closest_spec s.length (L := refs.map List.length) (by simpa using hr)
    obtain ⟨r, hr, e⟩ := List.mem_map.1 h.1
    simp only [refTokens, List.map_cons, List.map_nil, List.sum_cons, List.sum_nil]
    have := hlen r hr
    omega
  have hR' : refTokens [(refs ++ [j], s)] = s.length + 1 := by
    simp only [refTokens, List.map_cons, List.map_nil, List.sum_cons, List.sum_nil, add_zero]
    refine closest_eq ⟨by simp [hjl], ?_⟩
    intro l hl
    rw [List.map_append, List.mem_append] at hl
    rcases hl with hl | hl
    · obtain ⟨r, hr, rfl⟩ := List.mem_map.1 hl
      have := hlen r hr
      left
      rw [abs_of_pos (by push_cast; linarith), abs_of_neg (by omega)]
      push_cast
      omega
    · simp only [List.map_cons, List.map_nil, List.mem_singleton] at hl
      right
      rw [hl, hjl]
      exact ⟨rfl, le_rfl⟩
  have hb : brevity (s.length + 1) s.length = Real.exp (-1 / s.length) := by
    have hs' : (s.length : ℝ) ≠ 0 := by exact_mod_cast hs.ne'
    rw [brevity, if_neg (by omega)]
    congr 1
    push_cast
    field_simp
    ring
  unfold bleu4
  rw [hM 1 le_rfl, hP 1 le_rfl, hP 2 (by norm_num), hP 3 (by norm_num), hP 4 (by norm_num), hT, hT', hR', hb,
    (brevity_eq_one _ hs).2 hR]
  split_ifs
  · simp
  · ring

/-! ## Order does not matter -/

/-- **C120 (order of the sentences).** -/
theorem bleu4_perm {c c' : List (List (List W) × List W)} (h : c.Perm c') : bleu4 c = bleu4 c' := by
  have hM : ∀ n, corpusMatched n c = corpusMatched n c' := fun n => (h.map _).sum_eq
  have hP : ∀ n, corpusPlaces n c = corpusPlaces n c' := fun n => (h.map _).sum_eq
  have hT : tokens c = tokens c' := (h.map _).sum_eq
  have hR : refTokens c = refTokens c' := (h.map _).sum_eq
  simp only [bleu4, precision, hM, hP, hT, hR]

theorem bestOcc_subset {g : List W} {refs refs' : List (List W)} (h : refs ⊆ refs') : bestOcc g refs ≤ bestOcc g refs' := by
  rcases Nat.eq_zero_or_pos (bestOcc g refs) with e | e
  · omega
  · obtain ⟨r, hr, h'⟩ := (le_bestOcc e).1 le_rfl
    exact (le_bestOcc e).2 ⟨r, h hr, h'⟩

/-- **C120 (order and repetitions of references).** Only the set of the references of a sentence counts. -/
theorem bleu4_refs {c : List (List (List W) × List W)} (f : List (List W) × List W → List (List W))
    (hf : ∀ p ∈ c, f p ⊆ p.1 ∧ p.1 ⊆ f p) : bleu4 (c.map fun p => (f p, p.2)) = bleu4 c := by
  have hM : ∀ n, corpusMatched n (c.map fun p => (f p, p.2)) = corpusMatched n c := by
    intro n
    rw [corpusMatched, corpusMatched, List.map_map]
    congr 1
    refine List.map_congr_left fun p hp => ?_
    simp only [Function.comp, matched]
    refine Finset.sum_congr rfl fun g _ => ?_
    rw [(bestOcc_subset (hf p hp).1).antisymm (bestOcc_subset (hf p hp).2)]
  have hP : ∀ n, corpusPlaces n (c.map fun p => (f p, p.2)) = corpusPlaces n c := by
    intro n; rw [corpusPlaces, corpusPlaces, List.map_map]; rfl
  have hT : tokens (c.map fun p => (f p, p.2)) = tokens c := by rw [tokens, tokens, List.map_map]; rfl
  have hR : refTokens (c.map fun p => (f p, p.2)) = refTokens c := by
    rw [refTokens, refTokens, List.map_map]
    congr 1
    refine List.map_congr_left fun p hp => ?_
    simp only [Function.comp, closest]
    congr 1
    ext r
    have hmem : ∀ l, l ∈ (f p).map List.length ↔ l ∈ p.1.map List.length := fun l =>
      ⟨fun h => (List.map_subset _ (hf p hp).1) h, fun h => (List.map_subset _ (hf p hp).2) h⟩
    simp only [IsClosest, hmem, Set.mem_ofPred_eq]
  simp only [bleu4, precision, hM, hP, hT, hR]

/-! ## The printed three-token score -/

/-- **C120 (refuted: three tokens).** The number printed as `bleu3` is never below the scores for two and for three tokens,
and above the latter whenever a phrase of three tokens is not found; it does not depend on phrases of three tokens
(`lmBleus_eq`). -/
theorem printed_bleu3 {c : List (List (List W) × List W)} (h0 : c ≠ []) (h1 : corpusMatched 1 c ≠ 0) :
    let printed := brevity (refTokens c) (tokens c) * (precision 1 c * precision 2 c) ^ (1 / 3 : ℝ)
    bleu2 c ≤ printed ∧ bleu3 c ≤ printed ∧ (corpusMatched 3 c ≠ corpusPlaces 3 c → bleu3 c < printed) := by
  have hp := fun n => precision_pos h0 n
  have hl := fun n => precision_le h0 n
  have hb := brevity_pos (refTokens c) (tokens c)
  have q2 : 0 < precision 1 c * precision 2 c := mul_pos (hp 1) (hp 2)
  have l2 : precision 1 c * precision 2 c ≤ 1 := mul_le_one₀ (hl 1) (hp 2).le (hl 2)
  simp only [bleu2, bleu3, if_neg h1]
  refine ⟨?_, ?_, fun h3 => ?_⟩
  · exact mul_le_mul_of_nonneg_left (Real.rpow_le_rpow_of_exponent_ge q2 l2 (by norm_num)) hb.le
  · exact mul_le_mul_of_nonneg_left (Real.rpow_le_rpow (mul_pos q2 (hp 3)).le (mul_le_of_le_one_right q2.le (hl 3))
      (by norm_num)) hb.le
  · have h3' : precision 3 c < 1 := lt_of_le_of_ne (hl 3) fun e => h3 ((precision_eq_one h0 3).1 e)
    exact mul_lt_mul_of_pos_left (Real.rpow_lt_rpow (mul_pos q2 (hp 3)).le (mul_lt_of_lt_one_right q2 h3') (by norm_num)) hb

/-! ## What the evaluator reports -/

theorem bleuTotals_noRefs (sizes : ℕ) {refs : List (List (List W))} {hyps : List (List W)} (hl : refs.length = hyps.length)
    (h : [] ∈ refs) : bleuTotals sizes refs hyps = none := by
  induction refs generalizing hyps with
  | nil => simp at h
  | cons r refs ih =>
    cases hyps with
    | nil => simp at hl
    | cons s hyps =>
      rw [bleuTotals]
      rcases List.mem_cons.1 h with h | h
      · subst h
        simp [closestRefLength]
      · rw [ih (by simpa using hl) h]
        simp

theorem corpusBleu_none {refs : List (List (List W))} {hyps : List (List W)} (hl : refs.length = hyps.length)
    {weights : List (List ℝ)} (hw : ∃ w ∈ weights, w ≠ []) (h : hyps = [] ∨ [] ∈ refs) :
    corpusBleu refs hyps weights = none := by
  rcases h with rfl | h
  · obtain rfl : refs = [] := by simpa using hl
    have hpos : 0 < (weights.map List.length).foldr max 0 := by
      obtain ⟨w, hw, hw'⟩ := hw
      induction weights with
      | nil => simp at hw
      | cons a l ih =>
        have := List.length_pos_of_ne_nil hw'
        rcases List.mem_cons.1 hw with rfl | hw
        · simp [this]
        · simp [ih hw]
    simp only [corpusBleu, bleuTotals]
    simpa using ⟨0, hpos⟩
  · simp [corpusBleu, hl, bleuTotals_noRefs _ hl h]

/-- The corpus in which every sentence is compared with the same references. -/
def Spec.against (refs sents : List (List W)) : List (List (List W) × List W) := sents.map fun s => (refs, s)

/-- The corpus in which every sentence is compared with all the others. -/
def Spec.againstOthers (sents : List (List W)) : List (List (List W) × List W) :=
  (List.range sents.length).map fun i => (sents.eraseIdx i, sents.getD i [])

theorem lmBleu4_against {refs sents : List (List W)} :
    lmBleu4 (List.replicate sents.length refs) sents =
      if refs = [] ∨ sents = [] then none else some (bleu4 (against refs sents)) := by
  have e1 : List.replicate sents.length refs = (against refs sents).map Prod.fst := by
    simp [against, Function.comp_def]
  have e2 : sents = (against refs sents).map Prod.snd := by simp [against, Function.comp_def]
  split_ifs with h
  · rw [lmBleu4, lmBleus, corpusBleu_none (by simp) ⟨[1 / 2, 1 / 2], by simp [lmWeights], by simp⟩]
    · rfl
    · by_cases hs : sents = []
      · exact Or.inl hs
      · obtain rfl := h.resolve_right hs
        exact Or.inr (List.mem_replicate.2 ⟨by simpa using hs, rfl⟩)
  · rw [not_or] at h
    rw [e1]
    conv_lhs => rw [e2]
    rw [← e2]
    refine (congrArg (lmBleu4 _) e2).trans (lmBleu4_eq (by simpa [against] using h.2) ?_)
    intro p hp
    obtain ⟨s, -, rfl⟩ := List.mem_map.1 hp
    exact h.1

theorem defaultBleu_others {sents : List (List W)} (h : 1 < sents.length) :
    defaultBleu (selfBleuRefs sents) sents = some (bleu4 (againstOthers sents)) := by
  have e1 : selfBleuRefs sents = (againstOthers sents).map Prod.fst := by
    rw [selfBleuRefs_eq, againstOthers, List.map_map]; rfl
  have e2 : (againstOthers sents).map Prod.snd = sents := by
    rw [againstOthers, List.map_map]
    refine List.ext_getElem (by simp) fun i h1 h2 => ?_
    simp [List.getD, h2]
  have h3 := defaultBleu_eq (c := againstOthers sents) (by
    rw [againstOthers, ne_eq, List.map_eq_nil_iff, List.range_eq_nil]; omega) (by
    intro p hp
    obtain ⟨i, hi, rfl⟩ := List.mem_map.1 hp
    refine List.ne_nil_of_length_pos ?_
    rw [List.length_eraseIdx]
    split_ifs <;> omega)
  rwa [e2, ← e1] at h3

theorem lmPrepare_nil (lower : W → W) (repl : List (W × W)) (data : List (List W)) :
    lmPrepare lower true repl data = [] ↔ data = [] := by
  have key : ∀ (repl : List (W × W)) (d : List (List W)), (repl.foldl (fun data kv => data.map fun sent =>
      sent.map fun t => if t ≠ kv.1 then t else kv.2) d).length = d.length := by
    intro repl
    induction repl with
    | nil => simp
    | cons kv repl ih => intro d; rw [List.foldl_cons, ih, List.length_map]
  rw [← List.length_eq_zero_iff, lmPrepare, key]
  simp

/-- **C120 (what is reported).** The three scores of the evaluation are those of the generated sentences against the book
references, the wiki references and both; self-BLEU is that against the other sentences. -/
theorem lmEvaluate_bleu {lower : W → W} {wikiRepl tbcRepl : List (W × W)} {sents wiki tbc : List (List W)} {maxN : ℕ}
    {r : LMResult ℝ} (h : lmEvaluate lower wikiRepl tbcRepl lmBleu4 defaultBleu sents wiki tbc maxN = some r) :
    sents ≠ [] ∧ wiki ≠ [] ∧ tbc ≠ [] ∧
    r.tbcBleu = bleu4 (against (lmPrepare lower true tbcRepl tbc) sents) ∧
    r.wikiBleu = bleu4 (against (lmPrepare lower true wikiRepl wiki) sents) ∧
    r.tbcWikiBleu = bleu4 (against (lmPrepare lower true tbcRepl tbc ++ lmPrepare lower true wikiRepl wiki) sents) ∧
    r.selfBleu = if 2 ≤ sents.length then some (bleu4 (againstOthers sents)) else none := by
  obtain ⟨-, -, -, -, -, -, h1, h2, h3, h4, h5⟩ := lmEvaluate_some h
  rw [List.map_const', lmBleu4_against] at h2 h3 h4
  split_ifs at h2 with c2
  split_ifs at h3 with c3
  split_ifs at h4 with c4
  rw [not_or, lmPrepare_nil] at c2 c3
  refine ⟨c2.2, c3.1, c2.1, Option.some.inj h2, Option.some.inj h3, Option.some.inj h4, ?_⟩
  split_ifs with c
  · obtain ⟨q, hq⟩ := Option.isSome_iff_exists.1 (h1.2 c)
    rw [hq, h5 q hq, defaultBleu_others (by omega)]
  · cases e : r.selfBleu with
    | none => rfl
    | some q => exact absurd (h1.1 (by simp [e])) c

/-- **C120 (when there are no numbers).** The evaluation raises exactly if there is no sentence, no reference in one of the
two files, or no sentence with `max_n_grams` tokens. -/
theorem lmEvaluate_bleu_none (lower : W → W) (wikiRepl tbcRepl : List (W × W)) (sents wiki tbc : List (List W)) (maxN : ℕ) :
    lmEvaluate lower wikiRepl tbcRepl lmBleu4 defaultBleu sents wiki tbc maxN = none ↔
      sents = [] ∨ wiki = [] ∨ tbc = [] ∨ (1 ≤ maxN ∧ ∀ s ∈ sents, s.length < maxN) := by
  by_cases hs : sents = []
  · refine ⟨fun _ => Or.inl hs, fun _ => ?_⟩
    cases e : lmEvaluate lower wikiRepl tbcRepl lmBleu4 defaultBleu sents wiki tbc maxN with
    | none => rfl
    | some r => exact absurd hs (lmEvaluate_bleu e).1
  by_cases hw : wiki = []
  · refine ⟨fun _ => Or.inr (Or.inl hw), fun _ => ?_⟩
    cases e : lmEvaluate lower wikiRepl tbcRepl lmBleu4 defaultBleu sents wiki tbc maxN with
    | none => rfl
    | some r => exact absurd hw (lmEvaluate_bleu e).2.1
  by_cases ht : tbc = []
  · refine ⟨fun _ => Or.inr (Or.inr (Or.inl ht)), fun _ => ?_⟩
    cases e : lmEvaluate lower wikiRepl tbcRepl lmBleu4 defaultBleu sents wiki tbc maxN with
    | none => rfl
    | some r => exact absurd ht (lmEvaluate_bleu e).2.2.1
  simp only [hs, hw, ht, false_or]
  rw [← lmEvaluate_none lower wikiRepl tbcRepl (fun r s => (lmBleu4 r s).getD 0) (fun r s => (defaultBleu r s).getD 0) sents
    wiki tbc maxN]
  have h1 : ¬ (lmPrepare lower true tbcRepl tbc = [] ∨ sents = []) := by simp [lmPrepare_nil, ht, hs]
  have h2 : ¬ (lmPrepare lower true wikiRepl wiki = [] ∨ sents = []) := by simp [lmPrepare_nil, hw, hs]
  have h3 : ¬ (lmPrepare lower true tbcRepl tbc ++ lmPrepare lower true wikiRepl wiki = [] ∨ sents = []) := by
    simp [lmPrepare_nil, hw, hs]
  have hself : (if 1 < sents.length then (defaultBleu (selfBleuRefs sents) sents).map some else some none) =
      (if 1 < sents.length then (some ((defaultBleu (selfBleuRefs sents) sents).getD 0)).map some else some none) := by
    split_ifs with c
    · rw [defaultBleu_others c]; rfl
    · rfl
  simp only [lmEvaluate, lmBleu4_against, h1, h2, h3, if_false, hself, Option.getD_some]

/-! ## Consequences for the reported numbers -/

section Reported

variable {lower : W → W} {wikiRepl tbcRepl : List (W × W)} {sents wiki tbc : List (List W)} {maxN : ℕ} {r : LMResult ℝ}
  (h : lmEvaluate lower wikiRepl tbcRepl lmBleu4 defaultBleu sents wiki tbc maxN = some r)
include h

/-- **C120 (range of the reported numbers).** -/
theorem reported_range : (0 ≤ r.tbcBleu ∧ r.tbcBleu ≤ 1) ∧ (0 ≤ r.wikiBleu ∧ r.wikiBleu ≤ 1) ∧
    (0 ≤ r.tbcWikiBleu ∧ r.tbcWikiBleu ≤ 1) ∧ ∀ q, r.selfBleu = some q → 0 ≤ q ∧ q ≤ 1 := by
  obtain ⟨h0, -, -, h1, h2, h3, h4⟩ := lmEvaluate_bleu h
  have ha : ∀ refs, against refs sents ≠ [] := fun refs => by simpa [against] using h0
  refine ⟨h1 ▸ bleu4_range (ha _), h2 ▸ bleu4_range (ha _), h3 ▸ bleu4_range (ha _), fun q hq => ?_⟩
  rw [hq] at h4
  split_ifs at h4 with c
  obtain rfl := Option.some.inj h4
  refine bleu4_range ?_
  rw [againstOthers, ne_eq, List.map_eq_nil_iff, List.range_eq_nil]
  omega

/-- **C120 (refuted: case).** Sentences without a lower-case token score zero against every file of references, also if they
are lines of the file: the references are lower-cased, the sentences are not. -/
theorem reported_cased (hlow : ∀ s ∈ sents, ∀ t ∈ s, ∀ u, lower u ≠ t)
    (hrep : ∀ s ∈ sents, ∀ t ∈ s, ∀ kv ∈ wikiRepl ++ tbcRepl, kv.2 ≠ t) :
    r.tbcBleu = 0 ∧ r.wikiBleu = 0 ∧ r.tbcWikiBleu = 0 := by
  obtain ⟨h0, -, -, h1, h2, h3, -⟩ := lmEvaluate_bleu h
  have ha : ∀ refs, against refs sents ≠ [] := fun refs => by simpa [against] using h0
  have hno : ∀ s ∈ sents, ∀ t ∈ s, ∀ repl data, (∀ kv ∈ repl, kv ∈ wikiRepl ++ tbcRepl) →
      ∀ l ∈ lmPrepare lower true repl data, t ∉ l := by
    intro s hs t ht repl data hsub l hl htl
    rcases lmPrepare_tokens lower repl data t ⟨l, hl, htl⟩ with ⟨_, _, u, _, e⟩ | ⟨kv, hkv, e⟩
    · exact hlow s hs t ht u e.symm
    · exact hrep s hs t ht kv (hsub kv hkv) e.symm
  rw [h1, h2, h3, bleu4_eq_zero (ha _), bleu4_eq_zero (ha _), bleu4_eq_zero (ha _)]
  refine ⟨?_, ?_, ?_⟩ <;> intro p hp t ht l hl <;> obtain ⟨s, hs, rfl⟩ := List.mem_map.1 hp
  · exact hno s hs t ht _ _ (fun kv hkv => List.mem_append_right _ hkv) l hl
  · exact hno s hs t ht _ _ (fun kv hkv => List.mem_append_left _ hkv) l hl
  · rcases List.mem_append.1 hl with hl | hl
    · exact hno s hs t ht _ _ (fun kv hkv => List.mem_append_right _ hkv) l hl
    · exact hno s hs t ht _ _ (fun kv hkv => List.mem_append_left _ hkv) l hl

/-- **C120 (refuted: short sentences).** Sentences of fewer than four tokens score below `2 ^ -255`, also if they are lines
of the file. -/
theorem reported_short (h4 : ∀ s ∈ sents, s.length < 4) :
    r.tbcBleu < (2 : ℝ) ^ (-255 : ℤ) ∧ r.wikiBleu < (2 : ℝ) ^ (-255 : ℤ) ∧ r.tbcWikiBleu < (2 : ℝ) ^ (-255 : ℤ) := by
  obtain ⟨h0, -, -, h1, h2, h3, -⟩ := lmEvaluate_bleu h
  have ha : ∀ refs, against refs sents ≠ [] := fun refs => by simpa [against] using h0
  have hs : ∀ refs, ∀ p ∈ against refs sents, p.2.length < 4 := by
    intro refs p hp
    obtain ⟨s, hs, rfl⟩ := List.mem_map.1 hp
    exact h4 s hs
  exact ⟨h1 ▸ bleu4_short (ha _) (hs _), h2 ▸ bleu4_short (ha _) (hs _), h3 ▸ bleu4_short (ha _) (hs _)⟩

/-- **C120 (copies).** If every sentence has at least four tokens and is a line of the prepared book file, the book score and
the joint score are one. -/
theorem reported_copies (h4 : ∀ s ∈ sents, 4 ≤ s.length) (hin : ∀ s ∈ sents, s ∈ lmPrepare lower true tbcRepl tbc) :
    r.tbcBleu = 1 ∧ r.tbcWikiBleu = 1 := by
  obtain ⟨h0, -, -, h1, -, h3, -⟩ := lmEvaluate_bleu h
  have ha : ∀ refs, against refs sents ≠ [] := fun refs => by simpa [against] using h0
  rw [h1, h3]
  constructor <;> refine bleu4_copies (ha _) ?_ ?_ <;> intro p hp <;> obtain ⟨s, hs, rfl⟩ := List.mem_map.1 hp
  · exact h4 s hs
  · exact hin s hs
  · exact h4 s hs
  · exact List.mem_append_left _ (hin s hs)

end Reported

/-- **C120 (refuted: joint score).** The score against both files can be lower than the score against the book file: one
sentence of six tokens, a book reference with its first four and a wiki reference of seven other tokens. -/
theorem reported_joint_lower : ∃ (sents wiki tbc : List (List ℕ)) (r : LMResult ℝ),
    lmEvaluate id [] [] lmBleu4 defaultBleu sents wiki tbc 4 = some r ∧ r.tbcWikiBleu < r.tbcBleu := by
  have hn := (lmEvaluate_bleu_none (id : ℕ → ℕ) [] [] [[1, 2, 3, 4, 5, 6]] [[0, 0, 0, 0, 0, 0, 0]] [[1, 2, 3, 4]] 4).not
  obtain ⟨r, hr⟩ := Option.ne_none_iff_exists'.1 (hn.2 (by decide))
  refine ⟨_, _, _, r, hr, ?_⟩
  obtain ⟨-, -, -, h1, -, h3, -⟩ := lmEvaluate_bleu hr
  have e : ∀ d : List (List ℕ), lmPrepare id true [] d = d := by intro d; simp [lmPrepare]
  rw [e] at h1
  rw [e, e] at h3
  have hj := bleu4_junk (refs := [[1, 2, 3, 4]]) (by simp) (s := [1, 2, 3, 4, 5, 6]) (j := [0, 0, 0, 0, 0, 0, 0])
    (by simp) (by simp) (by simp)
  have hpos : 0 < r.tbcBleu := by
    rw [h1]
    refine lt_of_le_of_ne (bleu4_range (by simp [against])).1 fun e0 => ?_
    have := (bleu4_eq_zero (c := against [[1, 2, 3, 4]] [[1, 2, 3, 4, 5, 6]]) (by simp [against])).1 e0.symm
    exact this ([[1, 2, 3, 4]], [1, 2, 3, 4, 5, 6]) (by simp [against]) 1 (by simp) [1, 2, 3, 4] (by simp) (by simp)
  have h3' : r.tbcWikiBleu = Real.exp (-1 / 6) * r.tbcBleu := by
    rw [h1, h3]
    simpa [against] using hj
  rw [h3']
  exact mul_lt_of_lt_one_left hpos (by rw [Real.exp_lt_one_iff]; norm_num)

/-! ## Examples -/

/-- A copied sentence of four tokens scores one. -/
example : bleu4 [([["a", "b", "c", "d"], ["x"]], ["a", "b", "c", "d"])] = 1 :=
  bleu4_copies (by simp) (by simp) (by simp)

/-- A copied sentence of three tokens scores almost zero. -/
example : bleu4 [([["a", "b", "c"]], ["a", "b", "c"])] < (2 : ℝ) ^ (-255 : ℤ) := bleu4_short (by simp) (by simp)

/-- A further reference of the same length does no harm. -/
example : bleu4 [([["a", "b"]], ["a", "c"])] ≤ bleu4 (withRefs [["x", "y"]] [([["a", "b"]], ["a", "c"])]) := by
  refine bleu4_more_refs_partial _ (by simp) ?_ ?_
  · exact le_trans (show tokens [([["a", "b"]], ["a", "c"])] + 1 ≤ 2 ^ 2 by decide)
      (Nat.pow_le_pow_right (by norm_num) (by norm_num))
  · refine le_max_of_le_left (le_of_eq ?_)
    simp [refTokens, withRefs, tokens, closest_self]

/-- "The Cat" in upper case is not found in a file with this very line. -/
example : ∃ r : LMResult ℝ, lmEvaluate (fun w => if w = "The" then "the" else if w = "Cat" then "cat" else w) [] []
    lmBleu4 defaultBleu [["The", "Cat"]] [["The", "Cat"]] [["The", "Cat"]] 2 = some r ∧ r.tbcBleu = 0 := by
  obtain ⟨r, hr⟩ := Option.ne_none_iff_exists'.1 ((lmEvaluate_bleu_none
    (fun w => if w = "The" then "the" else if w = "Cat" then "cat" else w) [] [] [["The", "Cat"]] [["The", "Cat"]]
    [["The", "Cat"]] 2).not.2 (by simp))
  refine ⟨r, hr, (reported_cased hr ?_ (by simp)).1⟩
  intro s hs t ht u
  simp only [List.mem_singleton] at hs
  subst hs
  simp only [List.mem_cons, List.not_mem_nil, or_false] at ht
  rcases ht with rfl | rfl <;> split_ifs with h1 h2 <;> simp_all

end Discs
