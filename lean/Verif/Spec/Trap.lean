import Mathlib.Data.Fintype.Basic
import Mathlib.Data.Real.Basic

/-!
# Specification: runs that stop exploring
-/

namespace Discs.Spec

variable {D : ℕ}

/-- Every site of a binary sample changed. -/
def complement (x : Fin D → ℤ) : Fin D → ℤ := fun j => 1 - x j

/-- The energy does not change when all sites change. -/
def FlipSymmetric (f : (Fin D → ℤ) → ℝ) : Prop := ∀ x, f (complement x) = f x

/-- From position `i` on the path has at most two different samples, one the complement of the other. -/
def StuckFrom (i : ℕ) (path : List (Fin D → ℤ)) : Prop :=
  ∃ x, ∀ y ∈ path.drop i, y = x ∨ y = complement x

open Classical in
/-- Indicator of an event. -/
noncomputable def indic {X : Type*} (P : X → Prop) (x : X) : ℝ := if P x then 1 else 0

end Discs.Spec
