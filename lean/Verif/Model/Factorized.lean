import Verif.Model.Jax

/-!
# Model of `discs/models/bernoulli.py` and `discs/models/categorical.py`

A sample is flattened to one index (the code reshapes to `[batch, -1]`).  Samples are real arrays;
integer samples are cast, as in `x * params`.
-/

namespace Discs

open Finset

/-- `Bernoulli.forward` (`bernoulli.py:33-37`) on one sample. -/
def bernForward {D : ℕ} (p : Fin D → ℝ) (x : Fin D → ℝ) : ℝ := ∑ j, x j * p j

/-- `Bernoulli.get_expected_val` (`bernoulli.py:63-65`). -/
noncomputable def bernExpected {D : ℕ} (p : Fin D → ℝ) (j : Fin D) : ℝ :=
  Real.exp (p j) / (Real.exp (p j) + 1)

/-- `Bernoulli.get_var` (`bernoulli.py:67-69`). -/
noncomputable def bernVar {D : ℕ} (p : Fin D → ℝ) (j : Fin D) : ℝ :=
  bernExpected p j * (1 - bernExpected p j)

/-- `Bernoulli.logratio_in_neighborhood` (`bernoulli.py:57-61`), first component. -/
def bernLogratio {D : ℕ} (p : Fin D → ℝ) (x : Fin D → ℤ) (j : Fin D) : ℝ :=
  (1 - 2 * (x j : ℝ)) * p j

/-- `Bernoulli.get_neighbor_fn` (`bernoulli.py:49-55`) on one row: flip the chosen site. -/
def bernNeighbor {D : ℕ} (x : Fin D → ℤ) (j : Fin D) : Fin D → ℤ :=
  fun i => if i = j then 1 - x j else x i

/-- `Categorical.forward` (`categorical.py:37-45`) on one one-hot encoded sample. -/
def categNet {D C : ℕ} (p : Fin D → Fin C → ℝ) (x : Fin D → Fin C → ℝ) : ℝ :=
  ∑ j, ∑ c, x j c * p j c

/-- `Categorical.forward` on an integer sample: one-hot first (`categorical.py:39-40`). -/
def categForward {D C : ℕ} (p : Fin D → Fin C → ℝ) (x : Fin D → ℤ) : ℝ :=
  categNet p fun j => oneHot C (x j)

end Discs
