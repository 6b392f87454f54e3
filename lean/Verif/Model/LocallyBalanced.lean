import Mathlib.Data.List.FinRange
import Mathlib.Analysis.Real.Sqrt
import Verif.Model.Jax
import Verif.Model.MathUtil
import Verif.Model.RandomWalk

/-!
# Model of `discs/samplers/locallybalanced.py` (weight functions and sample selection)

The `step` of the plain locally-balanced sampler is modelled in `Verif/Model/LBStep.lean`.
-/

namespace Discs

open Finset

/-- `locallybalanced.py:39-50` `apply_weight_function`, one entry. -/
noncomputable def applyWeight (name : String) (t : ℝ) : Except String ℝ :=
  if name = "SQRT" then .ok (Real.sqrt t)
  else if name = "RATIO" then .ok (t / (t + 1))
  else if name = "MAX" then .ok (clipMin t 1)
  else if name = "MIN" then .ok (clipMax t 1)
  else .error ("Unknown function " ++ name)

/-- `locallybalanced.py:52-63` `apply_weight_function_logscale`, one entry. -/
noncomputable def applyWeightLog (name : String) (logt : ℝ) : Except String ℝ :=
  if name = "SQRT" then .ok (logt / 2)
  else if name = "RATIO" then .ok (logSigmoid logt)
  else if name = "MAX" then .ok (clipMin logt 0)
  else if name = "MIN" then .ok (clipMax logt 0)
  else .error ("Unknown function " ++ name)

open Classical in
/-- `jnp.argmax(v, axis=-1)` of one row: the first index of a maximal entry.  An empty axis raises in
JAX; it does not occur (`num_categories > 2`) and is `0` here. -/
noncomputable def argmax {C : ℕ} (v : Fin C → ℝ) : ℤ :=
  (((List.finRange C).find? fun c => decide (∀ c', v c' ≤ v c)).map fun c => ((c : ℕ) : ℤ)).getD 0

/-- `jax.nn.one_hot(x, C)` of one integer row. -/
def oneHotRow {D : ℕ} (C : ℕ) (x : Fin D → ℤ) : Fin D → Fin C → ℝ := fun j => oneHot C (x j)

/-- `jnp.argmax(y, axis=-1)` of one row of one-hot vectors. -/
noncomputable def argmaxRow {D C : ℕ} (y : Fin D → Fin C → ℝ) : Fin D → ℤ := fun j => argmax (y j)

/-- Sampler state shared by the gradient-based samplers: `abstractsampler.py:34-38`, and `radius`
(present for adaptive GWG, `gwg.py:87-90`, and for the path-auxiliary sampler,
`path_auxiliary.py:65-68`; unused by the others). -/
structure LBState where
  steps : ℕ
  numLlCalls : ℕ
  radius : ℝ

/-- `locallybalanced.py:28-37` `select_sample` for two categories: MH selection; the cast to `int32`
keeps integer values.  The state is copied and `steps` incremented (`abstractsampler.py:40-42`). -/
noncomputable def lbSelectBinary {B D : ℕ} (tiny : ℝ) (u logAcc : Fin B → ℝ) (x y : Fin B → Fin D → ℤ)
    (s : LBState) : (Fin B → Fin D → ℤ) × LBState :=
  ((mhStep tiny u logAcc x y).1, { s with steps := s.steps + 1 })

/-- `locallybalanced.py:28-37` `select_sample` for more than two categories: MH selection between
one-hot rows, then `argmax`. -/
noncomputable def lbSelectCateg {B D C : ℕ} (tiny : ℝ) (u logAcc : Fin B → ℝ)
    (x y : Fin B → Fin D → Fin C → ℝ) (s : LBState) : (Fin B → Fin D → ℤ) × LBState :=
  (fun b => argmaxRow ((mhStep tiny u logAcc x y).1 b), { s with steps := s.steps + 1 })

/-- The radius update shared by adaptive GWG (`gwg.py:98-100`) and adaptive path-auxiliary
(`path_auxiliary.py:59-62`), for samples of `dim` sites. -/
noncomputable def adaptRadius {B : ℕ} (target : ℝ) (dim : ℕ) (logAcc : Fin B → ℝ) (radius : ℝ) : ℝ :=
  clip (radius + meanB (fun b => Real.exp (clipMax (logAcc b) 0)) - target) 1 dim

/-- `jnp.round`: nearest integer, ties to even. -/
noncomputable def roundHalfEven (r : ℝ) : ℤ :=
  let n := ⌊r⌋
  if r - n < 1 / 2 then n
  else if r - n > 1 / 2 then n + 1
  else if n % 2 = 0 then n else n + 1

/-- `jnp.clip(jnp.round(radius).astype(int32), a_min=1, a_max=dim)` (`gwg.py:109-113`,
`path_auxiliary.py:94-95`). -/
noncomputable def numFlips (dim : ℕ) (radius : ℝ) : ℕ :=
  (min (max (roundHalfEven radius) 1) (dim : ℤ)).toNat

/-- Optional mask (`gwg.py:60-61`, `path_auxiliary.py:83-84`): `s * m + -1e9 * (1 - m)`. -/
noncomputable def applyMask {I : Type*} (mask : Option (I → ℝ)) (s : I → ℝ) : I → ℝ :=
  match mask with
  | none => s
  | some m => fun j => s j * m j + -1e9 * (1 - m j)

end Discs
