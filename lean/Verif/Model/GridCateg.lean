import Verif.Spec.Grid
import Verif.Model.MathUtil
import Verif.Model.LocallyBalanced
import Verif.Model.Gibbs
import Verif.Model.BlockGibbs

/-!
# Categorical draws from single-precision noise

The other models take `jax.random.categorical` as a draw with probabilities `softmax logits`.  Here the draw is what the
library computes: the first maximum of the logits plus Gumbel noise `-log(-log u)`, with `u` from `jax.random.uniform` with
`minval = finfo(float32).tiny` and `maxval = 1`.  Sums and logarithms are exact.
-/

namespace Discs

/-- `jnp.finfo(float32).tiny`, the lower end of the noise in `jax.random.gumbel`. -/
noncomputable def noiseMin : ℝ := 1 / 2 ^ 126

/-- `jax.random.categorical(rng, logits)` of one row, from its noise. -/
noncomputable def categoricalFrom {C : ℕ} (logits e : Fin C → ℝ) : ℤ := argmax fun c => gumbel (logits c) (e c)

/-- Probability of drawing `c` when the noise has `M` values. -/
noncomputable def categoricalG {C : ℕ} (M : ℕ) (logits : Fin C → ℝ) (c : Fin C) : ℝ :=
  Spec.gridLaw M noiseMin (categoricalFrom logits) ((c : ℕ) : ℤ)

/-- `gibbsKernel` (`gibbs.py:31-58`) with noise of finite precision. -/
noncomputable def gibbsKernelG {D : ℕ} (M : ℕ) (f : (Fin D → ℤ) → ℝ) (C : ℕ) (s : GibbsState) (x y : Fin D → ℤ) : ℝ :=
  Spec.law (categoricalG M (gibbsScores f C x s.index)) (fun k => (gibbsStep C (fun _ : Fin 1 => x) (fun _ => k) s).1 0) y

/-- `blockGibbsKernel` (`blockgibbs.py:39-71`) with noise of finite precision. -/
noncomputable def blockGibbsKernelG {D : ℕ} (M : ℕ) (f : (Fin D → ℤ) → ℝ) (C b : ℕ) (s : BlockState)
    (x y : Fin D → ℤ) : ℝ :=
  Spec.law (categoricalG M (blockScores f C b x s.index))
    (fun k => (blockGibbsStep C b (fun _ : Fin 1 => x) (fun _ => k) s).1 0) y

end Discs
