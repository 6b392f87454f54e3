import Verif.Spec.Float32
import Verif.Spec.Grid
import Verif.Model.MathUtil
import Verif.Model.RandomWalk
import Verif.Model.Comb

/-!
# Model of the single-precision evaluation of energies and of the acceptance test

The other model files compute with real numbers.  Here every arithmetic operation of the cited lines is followed by a rounding
`rd` to 24 significant bits; reductions (`jnp.sum`) may add in any order and grouping, so a reduced value is described by the
relation `Spec.SumF` and not by a function.  The library logarithm is an arbitrary function `lg`.

Not represented: overflow, subnormal numbers, NaN, reduced-precision matrix products, and fused multiply-adds (which round less
often).  Only one sample of the batch is described.
-/

namespace Discs

open Spec

/-- `Bernoulli.forward` (`bernoulli.py:33-37`): `jnp.sum(x * params)` on one sample. -/
def BernForwardF (rd : ℝ → ℝ) {D : ℕ} (p x : Fin D → ℝ) (r : ℝ) : Prop := SumF rd (List.ofFn fun j => rd (x j * p j)) r

/-- `x * 2 - 1` (`maxcut.py:33`). -/
def spinF (rd : ℝ → ℝ) (x : ℝ) : ℝ := rd (rd (x * 2) - 1)

/-- `Maxcut.objective` (`maxcut.py:29-38`) on one sample. -/
def MaxcutObjectiveF (rd : ℝ → ℝ) {N m : ℕ} (A : EdgeArrays N m) (x : Fin (N + 1) → ℝ) (r : ℝ) : Prop :=
  SumF rd (List.ofFn fun i => rd (rd (rd (1 - rd (spinF rd (x (A.edgeFrom i)) * spinF rd (x (A.edgeTo i)))) / 2) *
    A.edgeWeight i)) r

/-- `MIS.objective` (`mis.py:37-40`) and `MaxClique.objective` (`maxclique.py:38-41`) on one sample; also `clique_size`
(`maxclique.py:25,32`). -/
def MisObjectiveF (rd : ℝ → ℝ) {N : ℕ} (mask x : Fin (N + 1) → ℝ) (r : ℝ) : Prop :=
  SumF rd (List.ofFn fun v => rd (x v * mask v)) r

/-- `jnp.sum(gather2src * gather2dst * edge_mask, axis=1)` (`mis.py:33-34`, `maxclique.py:34`) on one sample. -/
def EdgeSumF (rd : ℝ → ℝ) {N m : ℕ} (A : EdgeArrays N m) (mask x : Fin (N + 1) → ℝ) (r : ℝ) : Prop :=
  SumF rd (List.ofFn fun i => rd (rd (rd (x (A.edgeFrom i) * mask (A.edgeFrom i)) * rd (x (A.edgeTo i) * mask (A.edgeTo i))) *
    A.edgeMask i)) r

/-- `MIS.penalty` (`mis.py:24-35`) on one sample. -/
def MisPenaltyF (rd : ℝ → ℝ) {N m : ℕ} (A : EdgeArrays N m) (mask : Fin (N + 1) → ℝ) (coeff : ℝ) (x : Fin (N + 1) → ℝ)
    (r : ℝ) : Prop :=
  ∃ v, EdgeSumF rd A mask x v ∧ r = rd (coeff * v)

/-- `MaxClique.penalty` (`maxclique.py:24-36`) on one sample. -/
def CliquePenaltyF (rd : ℝ → ℝ) {N m : ℕ} (A : EdgeArrays N m) (mask : Fin (N + 1) → ℝ) (coeff : ℝ) (x : Fin (N + 1) → ℝ)
    (r : ℝ) : Prop :=
  ∃ s v, MisObjectiveF rd mask x s ∧ EdgeSumF rd A mask x v ∧ r = rd (coeff * rd (rd (rd (s * rd (s - 1)) / 2) - v))

/-- `CombEBM.forward` (`comb_ebm.py:26-29`) on one sample. -/
def CombForwardF {X : Type*} (rd : ℝ → ℝ) (Objective Penalty : X → ℝ → Prop) (temperature : ℝ) (x : X) (r : ℝ) : Prop :=
  ∃ o p, Objective x o ∧ Penalty x p ∧ r = rd (rd (o - p) / temperature)

/-- `bernoulli_logp` (`math_util.py:152-154`), one entry: `jnp.log(noise + 1e-24) < log_prob`. -/
def bernoulliLogpF (rd lg : ℝ → ℝ) (noise logProb : ℝ) : Prop := lg (rd (noise + rd mhTiny)) < logProb

open Classical in
/-- `mh_step` (`math_util.py:157-166`). -/
noncomputable def mhStepF {B : ℕ} {X : Type*} (rd lg : ℝ → ℝ) (noise logProb : Fin B → ℝ) (cur new : Fin B → X) :
    Fin B → X :=
  fun b => if bernoulliLogpF rd lg (noise b) (logProb b) then new b else cur b

/-- `RandomWalkSampler.step` (`randomwalk.py:26-35`), the new samples.  `F₁` and `F₂` are the energies as computed at the current
sample and at the proposal (two separate calls, which the compiler may evaluate differently). -/
noncomputable def rwStepF {B D : ℕ} (rd lg : ℝ → ℝ) (F₁ F₂ : (Fin D → ℤ) → ℝ) (C : ℕ) (x : Fin B → Fin D → ℤ)
    (d : Fin B → RWDraw C D) (u : Fin B → ℝ) : Fin B → Fin D → ℤ :=
  let y := fun b => rwPropose (x b) (d b)
  mhStepF rd lg u (fun b => rd (F₂ (y b) - F₁ (x b))) x y

/-- Transition probabilities of one chain whose sites flip with probability `radius / D`. -/
noncomputable def rwKernelF {D : ℕ} (M : ℕ) (rd lg : ℝ → ℝ) (F₁ F₂ : (Fin D → ℤ) → ℝ) (C : ℕ) (radius : ℝ)
    (x y : Fin D → ℤ) : ℝ :=
  lawG M (rwDrawLaw C D radius) (fun d u => rwStepF rd lg F₁ F₂ C (fun _ : Fin 1 => x) (fun _ => d) (fun _ => u) 0) y

end Discs
