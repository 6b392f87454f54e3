import Verif.Model.LocallyBalanced

/-!
# Model of the adaptation state shared by `dmala.py` and `dlmc.py`

The step size `log_tau` can become NaN (`jnp.log` of a negative number); NaN is `none`.
-/

namespace Discs

open Finset

/-- Configuration fields read by the two samplers (`dmala.py:68-76`, `dlmc.py:59-68`).  `n` is the
DLMC field (`math.log(3.0)` is hard-wired in DMALA); `solver` is used by DLMC only. -/
structure DCfg where
  adaptive : Bool
  coOpt : Bool
  stepSize : ℝ
  target : ℝ
  scheduleStep : ℤ
  resetZ : ℤ
  n : ℝ
  solver : String

/-- Sampler state: `dmala.py:78-82`, `dlmc.py:70-74`. -/
structure DState where
  steps : ℕ
  numLlCalls : ℕ
  logTau : Option ℝ
  logZ : ℝ

/-- `make_init_state`: zeros. -/
def dInit : DState := ⟨0, 0, some 0, 0⟩

/-- The local statistics computed from the rates of the current batch. -/
structure DStats where
  logTau : ℝ
  logZ : ℝ

/-- `dmala.py:19-26` = `dlmc.py:19-26`: the new `log_z`.  `cur` is the already incremented step
counter. -/
def dNewLogZ (c : DCfg) (cur : ℕ) (stateLogZ localLogZ : ℝ) : ℝ :=
  let z0 := if c.resetZ > 0 then (if (cur : ℤ) % c.resetZ = 0 then localLogZ else stateLogZ)
    else (if cur = 1 then localLogZ else stateLogZ)
  let ema : ℝ := if (cur : ℤ) < c.scheduleStep then 0 else 1
  ema * z0 + (1 - ema) * localLogZ

open Classical in
/-- `dmala.py:29-31` = `dlmc.py:28-30`: the new `log_tau` from the expected number of flips
`n = exp(log_tau + log_z) + 3 * (acc - target)`: `clip(log(n) - log_z, a_min=-log_z)`.
`log` of a negative number is NaN and stays NaN through `clip`; `log 0 = -inf` is clipped to
`-log_z`. -/
noncomputable def dNewLogTau (target : ℝ) (logTau acc : Option ℝ) (logZ : ℝ) : Option ℝ :=
  match logTau, acc with
  | some t, some a =>
    let n := Real.exp (t + logZ) + 3 * (a - target)
    if n < 0 then none
    else if n = 0 then some (-logZ)
    else some (clipMin (Real.log n - logZ) (-logZ))
  | _, _ => none

/-- `dmala.py:14-32` = `dlmc.py:14-31` `update_sampler_state`, applied to the state returned by the
parent's `select_sample` (whose `steps` is already incremented).  `loc` is `None` in the non-adaptive
case, where it is not read. -/
noncomputable def dUpdate (c : DCfg) (s : DState) (acc : Option ℝ) (loc : DStats) : DState :=
  let s := { s with numLlCalls := s.numLlCalls + 4 }
  if !c.adaptive || c.coOpt then s
  else
    let logZ := dNewLogZ c s.steps s.logZ loc.logZ
    { s with logTau := dNewLogTau c.target s.logTau acc logZ, logZ := logZ }

/-- `dmala.py:34-42` = `dlmc.py:33-41` `select_sample`: the state part. -/
noncomputable def dSelectState (c : DCfg) (s : DState) (acc : Option ℝ) (loc : DStats) : DState :=
  dUpdate c { s with steps := s.steps + 1 } acc loc

/-- `jnp.mean(jnp.exp(jnp.clip(log_acc, a_max=0.0)))`. -/
noncomputable def dAcc {B : ℕ} (logAcc : Fin B → ℝ) : ℝ :=
  meanB fun b => Real.exp (clipMax (logAcc b) 0)

/-- `(1 - 2x) * grad_x`, binary `ll_delta` (`dmala.py:61`, `dlmc.py:53`). -/
noncomputable def deltaBinary {D : ℕ} (g : (Fin D → ℤ) → Fin D → ℝ) (x : Fin D → ℤ) : Fin D → ℝ :=
  fun j => (1 - 2 * (x j : ℝ)) * g x j

/-- `grad_x - sum(grad_x * x, -1)`, categorical `ll_delta` (`dmala.py:63`, `dlmc.py:55`). -/
noncomputable def deltaCateg {D C : ℕ} (g : (Fin D → Fin C → ℝ) → Fin D → Fin C → ℝ)
    (x : Fin D → Fin C → ℝ) : Fin D → Fin C → ℝ :=
  fun j c => g x j c - ∑ c', g x j c' * x j c'

/-- Independent site flips (`dmala.py:130-133`, `dlmc.py:134-137`): `x * (1 - flip) + flip * (1 - x)`. -/
def flipSites {D : ℕ} (x : Fin D → ℤ) (flip : Fin D → Bool) : Fin D → ℤ :=
  fun j =>
    let fl : ℤ := if flip j then 1 else 0
    x j * (1 - fl) + fl * (1 - x j)

/-- `get_ll_onestep`, binary (`dmala.py:135-139`, `dlmc.py:139-143`); `eps` is the constant `1e-32`. -/
noncomputable def flipLl {D : ℕ} (eps : ℝ) (p : Fin D → ℝ) (flip : Fin D → Bool) : ℝ :=
  ∑ j, (Real.log (p j + eps) * (if flip j then 1 else 0) +
    Real.log (1 - p j + eps) * (1 - (if flip j then 1 else 0)))

/-- The constant in `get_ll_onestep`. -/
noncomputable def llEps : ℝ := 1e-32

/-- Law of independent Bernoulli flips with probabilities `p` (`jax.random.bernoulli`). -/
noncomputable def flipLaw {D : ℕ} (p : Fin D → ℝ) (flip : Fin D → Bool) : ℝ :=
  ∏ j, if flip j then p j else 1 - p j

/-- `get_ll_onestep`, categorical (`dmala.py:157-160`, `dlmc.py:179-182`):
`sum(log_softmax(dist) * aux)`. -/
noncomputable def categLl {D C : ℕ} (dist aux : Fin D → Fin C → ℝ) : ℝ :=
  ∑ j, ∑ c, logSoftmax (dist j) c * aux j c

/-- The integer row of a drawn category per site (`jax.random.categorical`, `dmala.py:153`,
`dlmc.py:175`). -/
def categRow {D C : ℕ} (v : Fin D → Fin C) : Fin D → ℤ := fun j => ((v j : ℕ) : ℤ)

/-- Law of independent categorical draws, one per site, with logits `dist`. -/
noncomputable def categLaw {D C : ℕ} (dist : Fin D → Fin C → ℝ) (v : Fin D → Fin C) : ℝ :=
  ∏ j, softmax (dist j) (v j)

end Discs
