import Mathlib.Analysis.SpecialFunctions.Log.Basic
import Verif.Model.LMEval

/-!
# BLEU as the language-model evaluator calls it (`discs/evaluators/lm_eval.py:35-55`)

`nltk.translate.bleu_score.corpus_bleu` of the version in `requirements.txt` (3.8.1), written from its documentation: default
smoothing (`method0`), no automatic reweighting.  Numbers are reals; fractions are pairs.  `none` stands for an exception
(assertion, `KeyError`, `ValueError` of `min`, `ZeroDivisionError`).
-/

namespace Discs

variable {W : Type*} [DecidableEq W]

-- phrases are compared with the equality test derived from decidable equality
attribute [-instance] List.instBEq

/-- `counter[key]` of a `collections.Counter`: zero if there is no such key. -/
def counterGet {K : Type*} [DecidableEq K] (c : List (K × ℕ)) (k : K) : ℕ :=
  match c with
  | [] => 0
  | (k', v) :: l => if k' = k then v else counterGet l k

/-- The dictionary `max_counts` of `modified_precision`: for every phrase of the hypothesis the largest number of times it
occurs in a reference.  A dictionary is a partial function. -/
def bleuMaxCounts (counts : List (List W × ℕ)) (refs : List (List W)) (n : ℕ) : List W → Option ℕ :=
  refs.foldl (fun mc ref => counts.foldl (fun mc kv => Function.update mc kv.1
    (some (max ((mc kv.1).getD 0) (counterGet (counter (ngrams n ref)) kv.1)))) mc) fun _ => none

/-- `modified_precision(references, hypothesis, n)`: numerator and denominator of the clipped precision. -/
def modifiedPrecision (refs : List (List W)) (hyp : List W) (n : ℕ) : Option (ℕ × ℕ) := do
  let counts := counter (ngrams n hyp)
  let clipped ← counts.mapM fun kv => (bleuMaxCounts counts refs n kv.1).map fun m => min kv.2 m
  return (clipped.sum, max 1 (counts.map Prod.snd).sum)

/-- `closest_ref_length`: `min(ref_lens, key=lambda l: (abs(l - hyp_len), l))`; `ValueError` without references. -/
def closestRefLength (hypLen : ℕ) : List ℕ → Option ℕ
  | [] => none
  | l :: ls => some (ls.foldl (fun best l =>
      let d := fun l : ℕ => ((l : ℤ) - hypLen).natAbs
      if d l < d best ∨ (d l = d best ∧ l < best) then l else best) l)

/-- `brevity_penalty(closest_ref_len, hyp_len)`. -/
noncomputable def brevityPenalty (ref hyp : ℕ) : ℝ :=
  if hyp > ref then 1 else if hyp = 0 then 0 else Real.exp (1 - (ref : ℝ) / hyp)

/-- `SmoothingFunction.method0`: a precision with numerator zero becomes `sys.float_info.min`. -/
noncomputable def bleuSmooth (p : ℕ × ℕ) : ℝ := if p.1 ≠ 0 then (p.1 : ℝ) / p.2 else (2 : ℝ) ^ (-1022 : ℤ)

/-- The sums over the corpus of `corpus_bleu`: for every size numerators and denominators, and the lengths of the
hypotheses and of their closest references. -/
def bleuTotals (sizes : ℕ) : List (List (List W)) → List (List W) → Option ((ℕ → ℕ × ℕ) × ℕ × ℕ)
  | refs :: rs, h :: hs => do
    let p ← (List.range sizes).mapM fun i => modifiedPrecision refs h (i + 1)
    let r ← closestRefLength h.length (refs.map List.length)
    let (q, hl, rl) ← bleuTotals sizes rs hs
    return (fun i => ((p.getD i (0, 0)).1 + (q i).1, (p.getD i (0, 0)).2 + (q i).2), h.length + hl, r + rl)
  | _, _ => some (fun _ => (0, 0), 0, 0)

/-- `corpus_bleu(list_of_references, hypotheses, weights)` with a list of weight tuples: one score per tuple.  Entry `i` of
the totals belongs to phrases of `i + 1` tokens. -/
noncomputable def corpusBleu (refs : List (List (List W))) (hyps : List (List W)) (weights : List (List ℝ)) :
    Option (List ℝ) := do
  if refs.length ≠ hyps.length then none
  let sizes := (weights.map List.length).foldr max 0
  let (p, hl, rl) ← bleuTotals sizes refs hyps
  let bp := brevityPenalty rl hl
  if ∃ i < sizes, (p i).2 = 0 then none
  if (p 0).1 = 0 then return weights.map fun _ => 0
  return weights.map fun w => bp * Real.exp ((w.zipIdx.map fun wi => wi.1 * Real.log (bleuSmooth (p wi.2))).sum)

/-- The weights of `LMevaluator.corpus_bleu` (`lm_eval.py:41-45`). -/
noncomputable def lmWeights : List (List ℝ) := [[1 / 2, 1 / 2], [1 / 3, 1 / 3], [1 / 4, 1 / 4, 1 / 4, 1 / 4]]

/-- The three numbers `corpus_bleu` of the evaluator prints (`lm_eval.py:38-47`). -/
noncomputable def lmBleus (refs : List (List (List W))) (hyps : List (List W)) : Option (List ℝ) :=
  corpusBleu refs hyps lmWeights

/-- The number the evaluator uses: `bleu4` (`lm_eval.py:48`). -/
noncomputable def lmBleu4 (refs : List (List (List W))) (hyps : List (List W)) : Option ℝ :=
  (lmBleus refs hyps).bind fun l => l[2]?

/-- `self_bleu` uses the default weights, a single tuple (`lm_eval.py:50-56`). -/
noncomputable def defaultBleu (refs : List (List (List W))) (hyps : List (List W)) : Option ℝ :=
  (corpusBleu refs hyps [[1 / 4, 1 / 4, 1 / 4, 1 / 4]]).bind fun l => l[0]?

end Discs
