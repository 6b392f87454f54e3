import Verif.Model.DState
import Mathlib.Analysis.SpecialFunctions.Gamma.Basic

/-!
# Model of `discs/models/fhmm.py`

`l = n + 1` time steps (the code indexes row 0, so `l ≥ 1`), `k = K` chains, `C` categories.
-/

namespace Discs

open Finset

/-! ### Binary -/

/-- `BinaryFHMM.log_probab_of_px` (`fhmm.py:63-64`). -/
noncomputable def fhmmLogPx (x p : ℝ) : ℝ := Real.log p * x + Real.log (1 - p) * (1 - x)

/-- `logp_x` of `BinaryFHMM.forward` (`fhmm.py:81-87`). -/
noncomputable def fhmmLogpX {n K : ℕ} (alpha beta : ℝ) (x : Fin (n + 1) → Fin K → ℝ) : ℝ :=
  let xc : Fin n → Fin K → ℝ := fun t k =>
    x t.castSucc k * (1 - x t.succ k) + (1 - x t.castSucc k) * x t.succ k
  (∑ k, fhmmLogPx (x 0 k) alpha) + ∑ t, ∑ k, fhmmLogPx (xc t k) (1 - beta)

/-- `logp_y` of `BinaryFHMM.forward` (`fhmm.py:78-80`); `y` has shape `[l, 1]`. -/
noncomputable def fhmmLogpY {n K : ℕ} (sigma : ℝ) (w : Fin K → ℝ) (b : ℝ) (y : Fin (n + 1) → ℝ)
    (x : Fin (n + 1) → Fin K → ℝ) : ℝ :=
  -(∑ t, (y t - (∑ k, x t k * w k) - b) ^ 2) / (2 * sigma ^ 2)

/-- `BinaryFHMM.forward` (`fhmm.py:73-89`). -/
noncomputable def fhmmForward {n K : ℕ} (alpha beta sigma : ℝ) (w : Fin K → ℝ) (b : ℝ)
    (y : Fin (n + 1) → ℝ) (x : Fin (n + 1) → Fin K → ℝ) : ℝ :=
  fhmmLogpX alpha beta x + fhmmLogpY sigma w b y x

/-- Success probabilities of the draw of row `l + 1` in `sample_X` (`fhmm.py:56`). -/
def fhmmRowProb {K : ℕ} (beta : ℝ) (prev : Fin K → Bool) (k : Fin K) : ℝ :=
  let x : ℝ := if prev k then 1 else 0
  beta * x + (1 - beta) * (1 - x)

/-- Probability that `BinaryFHMM.sample_X` (`fhmm.py:51-58`) returns `x`: row 0 is
`bernoulli(1 * alpha)`, every following row is `bernoulli` with probabilities computed from the row
before it.  (The keys of the rows are obtained by successive splits; independence of the draws is
trusted.) -/
noncomputable def fhmmSampleProb {n K : ℕ} (alpha beta : ℝ) (x : Fin (n + 1) → Fin K → Bool) : ℝ :=
  flipLaw (fun _ => 1 * alpha) (x 0) *
    ∏ t : Fin n, flipLaw (fhmmRowProb beta (x t.castSucc)) (x t.succ)

/-- `BinaryFHMM.sample_Y` (`fhmm.py:60-61`): `z` are the standard normal draws. -/
noncomputable def fhmmSampleY {n K : ℕ} (sigma : ℝ) (x : Fin (n + 1) → Fin K → ℝ) (w : Fin K → ℝ) (b : ℝ)
    (z : Fin (n + 1) → ℝ) (t : Fin (n + 1)) : ℝ :=
  z t * sigma + (∑ k, x t k * w k) + b

/-! ### Categorical -/

/-- The transition matrix of `CategFHMM.__init__` (`fhmm.py:97-101`):
`eye * (beta - (1 - beta)/(C - 1))`, then `+= (1 - matrix) / (C - 1)` elementwise. -/
noncomputable def cfhmmBeta (C : ℕ) (beta : ℝ) (i j : Fin C) : ℝ :=
  let eye : ℝ := if i = j then 1 else 0
  let m := eye * (beta - (1 - beta) / ((C : ℝ) - 1))
  m + (1 - m) / ((C : ℝ) - 1)

/-- The initial distribution of `CategFHMM.make_init_params` (`fhmm.py:116-118`); `u` is the uniform
draw. -/
noncomputable def cfhmmAlpha {C : ℕ} (alpha : ℝ) (u : Fin (C + 1) → ℝ) : Fin (C + 1) → ℝ :=
  Fin.cases (1 - alpha) fun i => alpha * u i.succ / ∑ i' : Fin C, u i'.succ

/-- `jax.lax.lgamma`. -/
noncomputable def lgamma (z : ℝ) : ℝ := Real.log (Real.Gamma z)

/-- `CategFHMM.log_probab_of_px_categ` (`fhmm.py:154-158`) on one site. -/
noncomputable def cfhmmLogPx {C : ℕ} (x alphaLogits : Fin C → ℝ) : ℝ :=
  lgamma ((∑ c, x c) + 1) - (∑ c, lgamma (x c + 1)) + ∑ c, x c * alphaLogits c

/-- `logp_0 + logp_x` of `CategFHMM.forward` (`fhmm.py:169-181`) on a one-hot sample; `logBeta` is
`self.log_beta`. -/
noncomputable def cfhmmLogpX {n K C : ℕ} (alphaLogits : Fin C → ℝ) (logBeta : Fin C → Fin C → ℝ)
    (x : Fin (n + 1) → Fin K → Fin C → ℝ) : ℝ :=
  (∑ k, cfhmmLogPx (x 0 k) alphaLogits) +
    ∑ t : Fin n, ∑ k, ∑ i, ∑ j, x t.castSucc k i * x t.succ k j * logBeta i j

/-- One-hot encoding of category sequences (`fhmm.py:166-167`). -/
def cfhmmOneHot {n K C : ℕ} (v : Fin (n + 1) → Fin K → Fin C) : Fin (n + 1) → Fin K → Fin C → ℝ :=
  fun t k => oneHot C ((v t k : ℕ) : ℤ)

/-- Probability that `CategFHMM.sample_X` (`fhmm.py:132-145`) returns the sequences `v`: row 0 is
categorical with logits `alphaLogits`, each following row categorical with logits
`log(x[l-1] @ beta)`. -/
noncomputable def cfhmmSampleProb {n K C : ℕ} (alphaLogits : Fin C → ℝ) (B : Fin C → Fin C → ℝ)
    (v : Fin (n + 1) → Fin K → Fin C) : ℝ :=
  (∏ k, softmax alphaLogits (v 0 k)) *
    ∏ t : Fin n, ∏ k, softmax (fun j =>
      Real.log (∑ i, oneHot C ((v t.castSucc k : ℕ) : ℤ) i * B i j)) (v t.succ k)

/-- `CategFHMM.sample_Y` (`fhmm.py:147-152`) on a one-hot state sequence; the code's result has shape
`[1, l]` because `b` has shape `[1, 1]`. -/
noncomputable def cfhmmSampleY {n K C : ℕ} (sigma : ℝ) (x : Fin (n + 1) → Fin K → Fin C → ℝ)
    (w : Fin K → Fin C → ℝ) (b : ℝ) (z : Fin (n + 1) → ℝ) (t : Fin (n + 1)) : ℝ :=
  z t * sigma + (∑ k, ∑ c, x t k c * w k c) + b

/-- `logp_y` of `CategFHMM.forward` (`fhmm.py:182-184`). -/
noncomputable def cfhmmLogpY {n K C : ℕ} (sigma : ℝ) (w : Fin K → Fin C → ℝ) (b : ℝ)
    (y : Fin (n + 1) → ℝ) (x : Fin (n + 1) → Fin K → Fin C → ℝ) : ℝ :=
  -(∑ t, (y t - (∑ k, ∑ c, x t k c * w k c) - b) ^ 2) / (2 * sigma ^ 2)

/-- `CategFHMM.forward` (`fhmm.py:160-187`) on a one-hot sample. -/
noncomputable def cfhmmForward {n K C : ℕ} (alphaLogits : Fin C → ℝ) (logBeta : Fin C → Fin C → ℝ)
    (sigma : ℝ) (w : Fin K → Fin C → ℝ) (b : ℝ) (y : Fin (n + 1) → ℝ)
    (x : Fin (n + 1) → Fin K → Fin C → ℝ) : ℝ :=
  cfhmmLogpX alphaLogits logBeta x + cfhmmLogpY sigma w b y x

/-- Number of log-likelihoods `CategFHMM.forward` returns for an integer batch of shape
`[B, l, k]` (`fhmm.py:166-168`), `none` for a reshape error: the sample is one-hot encoded only if
its last axis differs from the number of categories. -/
def cfhmmRows (B l k C : ℕ) : Option ℕ :=
  if k ≠ C then some B
  else if (B * l * k) % (l * k * C) = 0 then some (B * l * k / (l * k * C)) else none

end Discs
