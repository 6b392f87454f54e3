import Mathlib.Analysis.SpecialFunctions.Log.Basic

/-!
# Model of the numerical primitives used by the code (`jax.nn`, `jnp.clip`, `jax.random` laws)

Over exact reals.  `jax.random.categorical(key, logits)` is modelled by a draw `ω` whose probability
is `softmax logits ω`; this law is trusted, the draw itself is an explicit argument of each step.
-/

namespace Discs

open Finset

/-- `jax.nn.softmax`; also the law of `jax.random.categorical`. -/
noncomputable def softmax {Ω : Type*} [Fintype Ω] (l : Ω → ℝ) (ω : Ω) : ℝ :=
  Real.exp (l ω) / ∑ ω', Real.exp (l ω')

/-- `jax.scipy.special.logsumexp`. -/
noncomputable def logsumexp {Ω : Type*} [Fintype Ω] (l : Ω → ℝ) : ℝ :=
  Real.log (∑ ω', Real.exp (l ω'))

/-- `jax.nn.log_softmax`. -/
noncomputable def logSoftmax {Ω : Type*} [Fintype Ω] (l : Ω → ℝ) (ω : Ω) : ℝ := l ω - logsumexp l

/-- `jax.nn.log_sigmoid`, i.e. `-softplus(-x)`. -/
noncomputable def logSigmoid (x : ℝ) : ℝ := - Real.log (1 + Real.exp (-x))

/-- `jax.nn.sigmoid`. -/
noncomputable def sigmoid (x : ℝ) : ℝ := 1 / (1 + Real.exp (-x))

/-- `jnp.clip(x, a_max=b)`. -/
noncomputable def clipMax (x b : ℝ) : ℝ := min x b

/-- `jnp.clip(x, a_min=a)`. -/
noncomputable def clipMin (x a : ℝ) : ℝ := max x a

/-- `jnp.clip(x, a_min=a, a_max=b)`, defined by JAX as `minimum(maximum(x, a), b)`. -/
noncomputable def clip (x a b : ℝ) : ℝ := min (max x a) b

/-- `jnp.logaddexp`. -/
noncomputable def logaddexp (x y : ℝ) : ℝ := Real.log (Real.exp x + Real.exp y)

/-- `jax.nn.one_hot(v, C)` for one integer: all zeros if `v` is outside `0..C-1`. -/
def oneHot (C : ℕ) (v : ℤ) : Fin C → ℝ := fun c => if (c : ℤ) = v then 1 else 0

end Discs
