import Verif.Model.Jax
import Verif.Model.MathUtil
import Verif.Spec.Markov

/-!
# Model of `discs/samplers/randomwalk.py`
-/

namespace Discs

open Finset

/-- `jnp.mean` over the batch. -/
noncomputable def meanB {B : ℕ} (v : Fin B → ℝ) : ℝ := (∑ b, v b) / B

/-- Sampler state: `abstractsampler.py:34-38` plus `randomwalk.py:20-24` (`radius`).
`acceptance_rate` (`randomwalk.py:59`) is absent until the first step. -/
structure RWState where
  steps : ℕ
  numLlCalls : ℕ
  radius : ℝ
  acceptanceRate : Option ℝ

/-- `randomwalk.py:20-24` `make_init_state`. -/
noncomputable def rwInit : RWState := ⟨0, 0, 1, none⟩

/-- The random draws of one row: which sites flip (`bernoulli`, lines 40-42) and the offset
`1 + k`, `k < C - 1`, of every site (`randint(1, num_categories)`, lines 43-48; it is drawn for every
site and multiplied by the flip indicator). -/
abbrev RWDraw (C D : ℕ) := (Fin D → Bool) × (Fin D → Fin (C - 1))

/-- `randomwalk.py:37-49` `sample_from_proposal`, one row. -/
def rwPropose {C D : ℕ} (x : Fin D → ℤ) (d : RWDraw C D) : Fin D → ℤ :=
  fun j => ((if d.1 j then 1 else 0) * (((d.2 j : ℕ) : ℤ) + 1) + x j) % (C : ℤ)

/-- Law of the draws of one row: each site flips independently with probability `radius / dim`, each
offset is uniform. -/
noncomputable def rwDrawLaw (C D : ℕ) (radius : ℝ) (d : RWDraw C D) : ℝ :=
  ∏ j, ((if d.1 j then radius / D else 1 - radius / D) * (1 / ((C - 1 : ℕ) : ℝ)))

open Classical in
/-- `randomwalk.py:54-60` `RWSampler.select_sample` (note: `steps` is not incremented: the code does
not call `update_sampler_state`). -/
noncomputable def rwSelect {B D : ℕ} (tiny : ℝ) (u logAcc : Fin B → ℝ) (x y : Fin B → Fin D → ℤ)
    (s : RWState) : (Fin B → Fin D → ℤ) × RWState :=
  let r := mhStep tiny u logAcc x y
  (r.1, { s with
    numLlCalls := s.numLlCalls + 2
    acceptanceRate := some (meanB fun b => if r.2 b then 1 else 0) })

/-- `randomwalk.py:63-74` `AdaptiveRWSampler.select_sample`. -/
noncomputable def rwSelectAdaptive {B D : ℕ} (target tiny : ℝ) (u logAcc : Fin B → ℝ)
    (x y : Fin B → Fin D → ℤ) (s : RWState) : (Fin B → Fin D → ℤ) × RWState :=
  let r := rwSelect tiny u logAcc x y s
  let acc := meanB fun b => Real.exp (clipMax (logAcc b) 0)
  (r.1, { r.2 with radius := clip (s.radius + acc - target) 1 D })

/-- `randomwalk.py:26-35` `step`, dispatching on the class chosen by `build_sampler` (lines 77-81). -/
noncomputable def rwStep {B D : ℕ} (adaptive : Bool) (target tiny : ℝ) (f : (Fin D → ℤ) → ℝ) (C : ℕ)
    (x : Fin B → Fin D → ℤ) (d : Fin B → RWDraw C D) (u : Fin B → ℝ) (s : RWState) :
    (Fin B → Fin D → ℤ) × RWState × ℝ :=
  let llx := fun b => f (x b)
  let y := fun b => rwPropose (x b) (d b)
  let lly := fun b => f (y b)
  let logAcc := fun b => lly b - llx b
  let r := if adaptive then rwSelectAdaptive target tiny u logAcc x y s
    else rwSelect tiny u logAcc x y s
  (r.1, r.2, meanB fun b => clipMax (Real.exp (logAcc b)) 1)

/-- Transition probabilities of one chain at sampler state `s`. -/
noncomputable def rwKernel {D : ℕ} (adaptive : Bool) (target tiny : ℝ) (f : (Fin D → ℤ) → ℝ) (C : ℕ)
    (s : RWState) (x y : Fin D → ℤ) : ℝ :=
  Spec.lawU (rwDrawLaw C D s.radius) (fun d u =>
    (rwStep adaptive target tiny f C (fun _ : Fin 1 => x) (fun _ => d) (fun _ => u) s).1 0) y

end Discs
