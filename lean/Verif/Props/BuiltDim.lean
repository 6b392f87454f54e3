import Verif.Model.Build
import Mathlib.Data.Fintype.BigOperators

/-!
# C110: the dimension of a built sampler

The number of sites a sampler works on is the number of positions of an array of its sample shape.
-/

namespace Discs

/-- Positions of an array of a shape (one index per axis). -/
abbrev Spec.Positions (shape : List ℕ) : Type := (i : Fin shape.length) → Fin (shape.get i)

/-- **C110.** A built sampler works on the positions of its sample shape. -/
theorem built_dim_positions (b : Built) : b.dim = Fintype.card (Spec.Positions b.shape) := by
  rw [Fintype.card_pi]
  simp only [Fintype.card_fin]
  unfold Built.dim
  rw [← List.prod_ofFn]
  congr 1
  exact (List.ofFn_get b.shape).symm

/-- An image of two rows and three columns has six sites. -/
example (b : Built) (h : b.shape = [2, 3]) : b.dim = 6 := by
  unfold Built.dim
  rw [h]
  rfl

end Discs
