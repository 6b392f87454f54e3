import Mathlib.Analysis.SpecialFunctions.Pow.Real
import Verif.Model.Learning

/-!
# Model of the optimisers the training code builds

`build_optimizer` (`discs/learning/train.py:82-97`) and the part of `global_update_fn`
(`train.py:125-143`) that applies the update.  The transformations of `optax` it chains are written out:
`clip_by_global_norm`, `scale_by_adam`, `add_decayed_weights`, `scale_by_learning_rate`, with their default
settings.  Parameters are one family indexed by `P` (the leaves of the tree flattened).  Real numbers replace
floating point numbers.
-/

namespace Discs

open Finset

variable {P : Type*} [Fintype P]

/-- The settings `build_optimizer` reads (`train.py:85-92`); `none` is a missing entry. -/
structure OptCfg where
  /-- `config.get('optimizer', 'adamw')`. -/
  name : Option String
  /-- `config.get('grad_norm', 0.0)`. -/
  gradNorm : Option ℝ
  /-- `config.get('weight_decay', 0.0)`. -/
  weightDecay : Option ℝ

/-- The chain that is built: optional clipping, Adam, weight decay (zero for `adam`), learning rate. -/
structure Optimizer where
  /-- Bound of `clip_by_global_norm`. -/
  clip : Option ℝ
  /-- `weight_decay`. -/
  decay : ℝ

/-- `build_optimizer` (`train.py:82-97`) for the two names the configurations use; `none` for the other optimisers
of `optax`, which are not modelled.  `optax.adam` is `optax.adamw` without `add_decayed_weights`. -/
noncomputable def buildOptimizer (c : OptCfg) : Option Optimizer :=
  let clip := if 0.0 < c.gradNorm.getD 0.0 then some (c.gradNorm.getD 0.0) else none
  match c.name.getD "adamw" with
  | "adam" => some ⟨clip, 0⟩
  | "adamw" => some ⟨clip, c.weightDecay.getD 0.0⟩
  | _ => none

/-- `optax.global_norm`. -/
noncomputable def globalNorm (g : P → ℝ) : ℝ := √(∑ i, g i ^ 2)

/-- `optax.clip_by_global_norm(c)`: `where(norm < c, g, (g / norm) * c)`. -/
noncomputable def clipGlobal (c : ℝ) (g : P → ℝ) : P → ℝ :=
  if globalNorm g < c then g else fun i => g i / globalNorm g * c

/-- The gradient after the first part of the chain (`train.py:88-89`). -/
noncomputable def Optimizer.clipped (o : Optimizer) (grad : P → ℝ) : P → ℝ :=
  match o.clip with
  | some c => clipGlobal c grad
  | none => grad

/-- `optax.ScaleByAdamState`, and the parameters.  The count of `scale_by_schedule` is the same number. -/
structure AdamState (P : Type*) where
  /-- Number of updates made. -/
  count : ℕ
  /-- Average of the gradients. -/
  mu : P → ℝ
  /-- Average of the squared gradients. -/
  nu : P → ℝ
  /-- Parameters. -/
  params : P → ℝ

/-- `optimizer.init(params)` (`train.py:28-35`). -/
def adamInit (p : P → ℝ) : AdamState P := ⟨0, fun _ => 0, fun _ => 0, p⟩

/-- `optimizer.update` and `optax.apply_updates` (`train.py:132-133`): `b1 = 0.9`, `b2 = 0.999`, `eps = 1e-8`. -/
noncomputable def optStep (o : Optimizer) (sched : ℕ → ℝ) (grad : P → ℝ) (st : AdamState P) : AdamState P :=
  let g := o.clipped grad
  let mu := fun i => (1 - 0.9) * g i + 0.9 * st.mu i
  let nu := fun i => (1 - 0.999) * g i ^ 2 + 0.999 * st.nu i
  let n := st.count + 1
  let u := fun i => mu i / (1 - 0.9 ^ n) / (√(nu i / (1 - 0.999 ^ n)) + 1e-8)
  { count := n
    mu := mu
    nu := nu
    params := fun i => st.params i + -sched st.count * (u i + o.decay * st.params i) }

/-- `n` updates; `grad t p` is the gradient that update `t` computes at the parameters `p` (it depends on the batch
and the samples of that step). -/
noncomputable def optRun (o : Optimizer) (sched : ℕ → ℝ) (grad : ℕ → (P → ℝ) → P → ℝ) (p : P → ℝ) :
    ℕ → AdamState P
  | 0 => adamInit p
  | t + 1 => let st := optRun o sched grad p t; optStep o sched (grad t st.params) st

end Discs
