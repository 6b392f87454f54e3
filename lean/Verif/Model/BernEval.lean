import Verif.Model.Factorized
import Mathlib.Data.Finset.Lattice.Fold

/-!
# Model of the Bernoulli evaluator (`discs/evaluators/bernoulli_eval.py`)

A chain array has shape `(T+1, B+1, D+1)`: steps, chains, sites.  The empty shapes, on which
`jnp.max` raises, are left out.  Real arithmetic; `none` stands for NaN (`0 / 0`).
-/

namespace Discs

open Finset

variable {T B D : ℕ}

/-- `_get_sample_mean` (`bernoulli_eval.py:27-29`), also the mean inside the variance (`:14`). -/
noncomputable def bSampleMean (s : Fin (T + 1) → Fin (B + 1) → Fin (D + 1) → ℝ)
    (b : Fin (B + 1)) (i : Fin (D + 1)) : ℝ :=
  (∑ t, s t b i) / ((T + 1 : ℕ) : ℝ)

/-- `_get_ubbiased_sample_variance` (`bernoulli_eval.py:12-18`).  With one sample the division is
`0 / 0`, i.e. NaN. -/
noncomputable def bSampleVar (s : Fin (T + 1) → Fin (B + 1) → Fin (D + 1) → ℝ) :
    Option (Fin (B + 1) → Fin (D + 1) → ℝ) :=
  if T = 0 then none
  else some fun b i => (∑ t, (s t b i - bSampleMean s b i) ^ 2) / (((T + 1 : ℕ) : ℝ) - 1)

/-- `_get_mse` (`bernoulli_eval.py:24-25`); the model's moments of shape `(D,)` are broadcast over the
chains. -/
noncomputable def bMse (pred : Fin (B + 1) → Fin (D + 1) → ℝ) (target : Fin (D + 1) → ℝ) : ℝ :=
  (∑ b, ∑ i, (pred b i - target i) ^ 2) / (((B + 1 : ℕ) : ℝ) * ((D + 1 : ℕ) : ℝ))

/-- `_get_max_mse_error` (`bernoulli_eval.py:20-22`). -/
noncomputable def bMaxMse (pred : Fin (B + 1) → Fin (D + 1) → ℝ) (target : Fin (D + 1) → ℝ) : ℝ :=
  (univ : Finset (Fin (B + 1) × Fin (D + 1))).sup' ⟨(0, 0), mem_univ _⟩ fun q =>
    (pred q.1 q.2 - target q.2) ^ 2

/-- The four numbers returned by `_compute_error`. -/
structure BernErr where
  avgMean : ℝ
  maxMean : ℝ
  avgVar : Option ℝ
  maxVar : Option ℝ

/-- `_compute_error` (`bernoulli_eval.py:37-46`).  The variance errors are called with the arguments
exchanged; the squared difference does not see it. -/
noncomputable def bComputeError (p : Fin (D + 1) → ℝ)
    (s : Fin (T + 1) → Fin (B + 1) → Fin (D + 1) → ℝ) : BernErr :=
  { avgMean := bMse (bSampleMean s) (bernExpected p)
    maxMean := bMaxMse (bSampleMean s) (bernExpected p)
    avgVar := (bSampleVar s).map fun v => bMse v (bernVar p)
    maxVar := (bSampleVar s).map fun v => bMaxMse v (bernVar p) }

/-- `jnp.expand_dims(samples[-1], axis=1)` (`bernoulli_eval.py:57`): the chains' last samples become the
samples of a single chain. -/
def bLastSamples (s : Fin (T + 1) → Fin (B + 1) → Fin (D + 1) → ℝ) :
    Fin (B + 1) → Fin (0 + 1) → Fin (D + 1) → ℝ :=
  fun b _ i => s (Fin.last T) b i

/-- `_compute_error_across_chain_and_batch` / `evaluate` (`bernoulli_eval.py:48-75`): the errors over
the chains, then the two average errors over the last samples. -/
noncomputable def bEvaluate (p : Fin (D + 1) → ℝ)
    (s : Fin (T + 1) → Fin (B + 1) → Fin (D + 1) → ℝ) : BernErr × ℝ × Option ℝ :=
  (bComputeError p s, (bComputeError p (bLastSamples s)).avgMean,
    (bComputeError p (bLastSamples s)).avgVar)

/-- Start indices of the windows of `plot_mixing_time_graph_over_chain` (`bernoulli_eval.py:89-92`):
`range(0, len(chain), stride)`, left at the first start whose window would be too short.  Stride 0,
on which `range` raises, is left out of the theorems. -/
def bWindowStarts (len size stride : ℕ) : List ℕ :=
  ((List.range ((len + stride - 1) / stride)).map (· * stride)).takeWhile fun start =>
    !decide ((len : ℤ) - start < size)

/-- `chain[start : start + window_size]` for every start (`bernoulli_eval.py:92`). -/
def bWindows {α : Type*} (chain : List α) (size stride : ℕ) : List (List α) :=
  (bWindowStarts chain.length size stride).map fun start => (chain.drop start).take size

end Discs
