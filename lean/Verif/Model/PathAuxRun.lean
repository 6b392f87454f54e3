import Verif.Model.PathAux

/-!
# Runs of a batch of adaptive path-auxiliary chains

`sampling.py:209-228` (and `sampling.py:590-600` for combinatorial models) call `sampler.step` once per step with the
samples and the state returned by the previous call.
-/

namespace Discs

variable {D : ℕ}

/-- The samples and the state after `k` steps of `PAFSNoReplacement` with `adaptive=True` on binary samples
(`path_auxiliary.py:14-33`); `σ k` are the orders of the perturbed scores and `u k` the acceptance noise of step `k`; the
energies and log-ratios may change from step to step, as under a temperature schedule. -/
noncomputable def pafsBatchRun {B : ℕ} (target tiny : ℝ) (calls : ℕ) (h : ℝ → ℝ) (f : ℕ → (Fin D → ℤ) → ℝ)
    (lr : ℕ → (Fin D → ℤ) → Fin D → ℝ) (σ : ℕ → Fin B → Equiv.Perm (Fin D)) (u : ℕ → Fin B → ℝ)
    (x : Fin B → Fin D → ℤ) (s : LBState) : ℕ → (Fin B → Fin D → ℤ) × LBState
  | 0 => (x, s)
  | k + 1 =>
    let c := pafsBatchRun target tiny calls h f lr σ u x s k
    let r := pafsAdaptiveStep target tiny calls h (f k) (lr k) none c.1 (σ k) (u k) c.2
    (r.1, r.2.1)

end Discs
