import Verif.Model.Jax
import Verif.Spec.Markov

/-!
# Model of `discs/samplers/gibbs.py`

`f` stands for `model.forward(model_param, ·)` on one row.  A batch is `Fin B → Fin D → ℤ`
(samples flattened row-major).
-/

namespace Discs

/-- Sampler state, `abstractsampler.py:34-38` (`num_ll_calls`, `steps`) plus `gibbs.py:18-22`
(`index`).  int32 overflow is not modelled. -/
structure GibbsState where
  steps : ℕ
  numLlCalls : ℕ
  index : ℕ
deriving DecidableEq, Repr

/-- `gibbs.py:18-22` `make_init_state`. -/
def gibbsInit : GibbsState := ⟨0, 0, 0⟩

/-- `gibbs.py:24-29` `update_sampler_state` with `abstractsampler.py:40-42`. -/
def gibbsUpdate (C D : ℕ) (s : GibbsState) : GibbsState :=
  { steps := s.steps + 1, index := (s.index + 1) % D, numLlCalls := s.numLlCalls + C }

/-- One row of `cur_sample.at[:, dim].add(v) % num_categories`, `gibbs.py:39` and `gibbs.py:50`.
The modulo is applied to every coordinate; an out-of-range `dim` adds nothing (JAX drops it). -/
def addAtMod {D : ℕ} (C : ℕ) (x : Fin D → ℤ) (dim : ℕ) (v : ℤ) : Fin D → ℤ :=
  fun j => (if (j : ℕ) = dim then x j + v else x j) % (C : ℤ)

/-- One column of `all_scores`, `gibbs.py:37-48`: entry 0 is the log-likelihood of the current row,
entry `i ≥ 1` that of the row shifted by `i` at `dim`. -/
def gibbsScores {D : ℕ} (f : (Fin D → ℤ) → ℝ) (C : ℕ) (x : Fin D → ℤ) (dim : ℕ) : Fin C → ℝ :=
  fun i => if (i : ℕ) = 0 then f x else f (addAtMod C x dim (i : ℕ))

/-- `gibbs.py:31-58` `step`; `valChange b` is the categorical draw of row `b` (line 49). -/
def gibbsStep {B D : ℕ} (C : ℕ) (x : Fin B → Fin D → ℤ) (valChange : Fin B → Fin C)
    (s : GibbsState) : (Fin B → Fin D → ℤ) × GibbsState × ℕ :=
  (fun b => addAtMod C (x b) s.index (valChange b : ℕ), gibbsUpdate C D s, 1)

/-- Law of the categorical draw of a row holding `x`, `gibbs.py:49`. -/
noncomputable def gibbsDraw {D : ℕ} (f : (Fin D → ℤ) → ℝ) (C : ℕ) (x : Fin D → ℤ)
    (s : GibbsState) : Fin C → ℝ := softmax (gibbsScores f C x s.index)

/-- Transition probabilities of a batch of one chain: law of the step's output. -/
noncomputable def gibbsKernel {D : ℕ} (f : (Fin D → ℤ) → ℝ) (C : ℕ) (s : GibbsState)
    (x y : Fin D → ℤ) : ℝ :=
  Spec.law (gibbsDraw f C x s) (fun k => (gibbsStep C (fun _ : Fin 1 => x) (fun _ => k) s).1 0) y

/-- Repeated steps, one list entry of draws per step; the sampler state is threaded through. -/
def gibbsRun {B D : ℕ} (C : ℕ) (draws : List (Fin B → Fin C))
    (x : Fin B → Fin D → ℤ) (s : GibbsState) : (Fin B → Fin D → ℤ) × GibbsState :=
  draws.foldl (fun p d => let r := gibbsStep C p.1 d p.2; (r.1, r.2.1)) (x, s)

end Discs
