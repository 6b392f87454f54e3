import Verif.Spec.Markov

/-!
# Specification vocabulary: noise of finite precision

`jax.random.uniform` in single precision draws one of the `2 ^ 23` numbers `k / 2 ^ 23`, all with the same probability.
Nothing in this file refers to the modelled code.
-/

namespace Discs.Spec

open Finset

variable {X Ω : Type*}

open Classical in
/-- Probability that `f ω u = y` when `ω` has probability `p ω` and, independently, `u` is one of `0, 1/M, …, (M-1)/M`. -/
noncomputable def lawG [Fintype Ω] (M : ℕ) (p : Ω → ℝ) (f : Ω → ℝ → X) (y : X) : ℝ :=
  ∑ ω, p ω * (((range M).filter fun k : ℕ => f ω ((k : ℝ) / M) = y).card / (M : ℝ))

open Classical in
/-- Probability that `F u = y` when the `u i` are independent, each one of `0, 1/M, …, (M-1)/M` raised to at least `lo`
(`jax.random.uniform` with `minval = lo`). -/
noncomputable def gridLaw {ι : Type*} [Fintype ι] (M : ℕ) (lo : ℝ) (F : (ι → ℝ) → X) (y : X) : ℝ :=
  ((univ.filter fun k : ι → Fin M => F (fun i => max lo (((k i : ℕ) : ℝ) / M)) = y).card : ℝ) / (M : ℝ) ^ Fintype.card ι

end Discs.Spec
