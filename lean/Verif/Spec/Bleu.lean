import Mathlib.Analysis.SpecialFunctions.Pow.Real
import Mathlib.Algebra.BigOperators.Group.Finset.Basic
import Mathlib.Order.Nat

/-!
# BLEU in terms of phrases and their occurrences

A corpus is a list of pairs: the references and the sentence compared with them.
-/

namespace Discs.Spec

variable {W : Type*} [DecidableEq W]

-- phrases are compared with the equality test derived from decidable equality
attribute [-instance] List.instBEq

/-- The number of places of a sentence where the phrase starts. -/
def occIn (g s : List W) : ℕ := ((Finset.range (s.length + 1)).filter fun k => g <+: s.drop k).card

/-- The distinct phrases of `n` tokens of a sentence. -/
def phrases (n : ℕ) (s : List W) : Finset (List W) :=
  (Finset.range (s.length + 1 - n)).image fun k => (s.drop k).take n

/-- The largest number of times the phrase occurs in one reference. -/
def bestOcc (g : List W) (refs : List (List W)) : ℕ := (refs.map fun r => occIn g r).foldr max 0

/-- Phrase occurrences of a sentence found in the references, no phrase more often than in its best reference. -/
def matched (n : ℕ) (refs : List (List W)) (s : List W) : ℕ :=
  ∑ g ∈ phrases n s, min (occIn g s) (bestOcc g refs)

/-- `r` is the length nearest to `m`, the smaller one of two equally near. -/
def IsClosest (m : ℕ) (lengths : List ℕ) (r : ℕ) : Prop :=
  r ∈ lengths ∧ ∀ l ∈ lengths, |(r : ℤ) - m| < |(l : ℤ) - m| ∨ (|(r : ℤ) - m| = |(l : ℤ) - m| ∧ r ≤ l)

/-- The length of the nearest reference (there is exactly one such number if there are references). -/
noncomputable def closest (m : ℕ) (lengths : List ℕ) : ℕ := sInf {r | IsClosest m lengths r}

/-- Matches of a corpus. -/
def corpusMatched (n : ℕ) (c : List (List (List W) × List W)) : ℕ := (c.map fun p => matched n p.1 p.2).sum

/-- Places of a corpus where a phrase starts; a sentence too short for any counts one. -/
def corpusPlaces (n : ℕ) (c : List (List (List W) × List W)) : ℕ := (c.map fun p => max 1 (p.2.length + 1 - n)).sum

/-- Share of the phrases of `n` tokens that match; the smallest normal double if none does. -/
noncomputable def precision (n : ℕ) (c : List (List (List W) × List W)) : ℝ :=
  if corpusMatched n c = 0 then (2 : ℝ) ^ (-1022 : ℤ) else (corpusMatched n c : ℝ) / corpusPlaces n c

/-- Tokens of the sentences of a corpus. -/
def tokens (c : List (List (List W) × List W)) : ℕ := (c.map fun p => p.2.length).sum

/-- Tokens of the nearest references of a corpus. -/
noncomputable def refTokens (c : List (List (List W) × List W)) : ℕ :=
  (c.map fun p => closest p.2.length (p.1.map List.length)).sum

/-- The penalty for `h > 0` tokens where the closest references have `r`. -/
noncomputable def brevity (r h : ℕ) : ℝ := if r ≤ h then 1 else Real.exp (1 - (r : ℝ) / h)

/-- The score of a corpus for phrases of up to four tokens: the geometric mean of the four shares times the penalty. -/
noncomputable def bleu4 (c : List (List (List W) × List W)) : ℝ :=
  if corpusMatched 1 c = 0 then 0
  else brevity (refTokens c) (tokens c) * (precision 1 c * precision 2 c * precision 3 c * precision 4 c) ^ (1 / 4 : ℝ)

/-- The score for phrases of up to two tokens. -/
noncomputable def bleu2 (c : List (List (List W) × List W)) : ℝ :=
  if corpusMatched 1 c = 0 then 0
  else brevity (refTokens c) (tokens c) * (precision 1 c * precision 2 c) ^ (1 / 2 : ℝ)

/-- The score for phrases of up to three tokens. -/
noncomputable def bleu3 (c : List (List (List W) × List W)) : ℝ :=
  if corpusMatched 1 c = 0 then 0
  else brevity (refTokens c) (tokens c) * (precision 1 c * precision 2 c * precision 3 c) ^ (1 / 3 : ℝ)

end Discs.Spec
