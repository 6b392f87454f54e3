import Mathlib.Data.Real.Basic
import Mathlib.Data.List.Perm.Basic

/-!
# Specification vocabulary: single-precision arithmetic

Numbers with 24 significant bits and an unbounded exponent: overflow and subnormal numbers are left out.  Nothing in this file
refers to the modelled code.
-/

namespace Discs.Spec

/-- A number with at most 24 significant bits. -/
def IsF32 (r : ℝ) : Prop := ∃ m e : ℤ, |m| ≤ 2 ^ 24 ∧ r = m * 2 ^ e

/-- `r` is a single-precision number nearest to `z` (ties may go either way). -/
def Rounds (z r : ℝ) : Prop := IsF32 r ∧ ∀ s, IsF32 s → |z - r| ≤ |z - s|

/-- `rd` rounds every number to a nearest single-precision number. -/
def IsRound (rd : ℝ → ℝ) : Prop := ∀ z, Rounds z (rd z)

/-- `r` can be the sum of the list computed in single precision: the order and the grouping of the additions are not fixed
(a reduction is compiled differently for different shapes and devices); every addition is rounded. -/
inductive SumF (rd : ℝ → ℝ) : List ℝ → ℝ → Prop
  | nil : SumF rd [] 0
  | one (t : ℝ) : SumF rd [t] t
  | add {l l' l'' : List ℝ} {a b : ℝ} : SumF rd l a → SumF rd l' b → l''.Perm (l ++ l') → SumF rd l'' (rd (a + b))

/-- `lg` computes logarithms up to a relative error `ρ`. -/
def LogAcc (ρ : ℝ) (lg log : ℝ → ℝ) : Prop := ∀ v, 0 < v → |lg v - log v| ≤ ρ * |log v|

end Discs.Spec
