import Mathlib.Analysis.Real.Sqrt
import Mathlib.Algebra.BigOperators.Intervals

/-!
# Model of the effective sample size (`discs/evaluators/ess_eval.py`)

One column of the array of mapped samples is a function `s` of the step, of which the first `n` values are used.
`tfp.mcmc.effective_sample_size` is called with its default arguments: autocovariances of the centred values, each divided
by its number of terms; correlations beyond the first negative one are dropped; the rest are summed with the weights
`(n - k) / n`.  The Fourier transforms by which the library computes the autocovariances are replaced by the sums.
Reals; `none` stands for NaN, which here is `0 / 0` only.
-/

namespace Discs

open Finset

/-- Values minus their mean (`center=True` in `auto_correlation`). -/
noncomputable def essCentred (n : ℕ) (s : ℕ → ℝ) (i : ℕ) : ℝ := s i - (∑ j ∈ range n, s j) / n

/-- `auto_correlation(states, axis=0, normalize=False)[k]`. -/
noncomputable def essAutoCov (n : ℕ) (s : ℕ → ℝ) (k : ℕ) : ℝ :=
  (∑ i ∈ range (n - k), essCentred n s i * essCentred n s (i + k)) / ((n - k : ℕ) : ℝ)

/-- `auto_corr[k] = auto_cov[k] / auto_cov[0]`. -/
noncomputable def essAutoCorr (n : ℕ) (s : ℕ → ℝ) (k : ℕ) : ℝ := essAutoCov n s k / essAutoCov n s 0

open Classical in
/-- `maximum(1 - cumsum(auto_corr < 0), 0)[k]`. -/
noncomputable def essMask (n : ℕ) (s : ℕ → ℝ) (k : ℕ) : ℝ :=
  max (1 - ∑ j ∈ range (k + 1), if essAutoCorr n s j < 0 then (1 : ℝ) else 0) 0

open Classical in
/-- `effective_sample_size` of one column; for constant columns all correlations are `0 / 0`. -/
noncomputable def essColumn (n : ℕ) (s : ℕ → ℝ) : Option ℝ :=
  if essAutoCov n s 0 = 0 then none
  else some (n / (-1 + 2 * ∑ k ∈ range n, ((n : ℝ) - k) / n * essAutoCorr n s k * essMask n s k))

/-- `jnp.nan_to_num(ess_of_chains, nan=1.0)` (`ess_eval.py:40`). -/
noncomputable def essOf (n : ℕ) (s : ℕ → ℝ) : ℝ := (essColumn n s).getD 1

/-- `_get_ess` (`ess_eval.py:33-43`) on `b` columns: mean and standard deviation. -/
noncomputable def getEss {b : ℕ} (n : ℕ) (s : Fin b → ℕ → ℝ) : ℝ × ℝ :=
  let mean := (∑ c, essOf n (s c)) / b
  (mean, Real.sqrt ((∑ c, (essOf n (s c) - mean) ^ 2) / b))

/-- `_get_mapped_samples` (`sampling.py:341-346`) for one chain: distance to the reference sample. -/
def essMapped {D : ℕ} (x0 x : Fin D → ℤ) : ℤ := ∑ i, |x i - x0 i|

end Discs
