import Mathlib.Data.Fintype.BigOperators
import Mathlib.Data.Real.Basic

/-!
# Specification: sequential draws without replacement
-/

namespace Discs.Spec

open Finset

variable {ι : Type*} [Fintype ι] [DecidableEq ι]

/-- Probability of drawing the sequence `l` one element after another without replacement, when the
elements of `used` are already gone: each draw picks a remaining element with probability
proportional to its weight. -/
noncomputable def seqDraw (p : ι → ℝ) : Finset ι → List ι → ℝ
  | _, [] => 1
  | used, i :: l =>
    (if i ∈ used then 0 else p i / ∑ j ∈ univ \ used, p j) * seqDraw p (insert i used) l

end Discs.Spec
