import Mathlib.MeasureTheory.Measure.Lebesgue.Basic
import Mathlib.MeasureTheory.Constructions.Pi
import Mathlib.MeasureTheory.Measure.Prod

/-!
# Specification: uniform noise
-/

namespace Discs.Spec

open MeasureTheory

/-- Independent uniform numbers on `[0, 1)`, one for each `i`: what `jax.random.uniform` is trusted to draw. -/
noncomputable def noise (ι : Type*) [Fintype ι] : Measure (ι → ℝ) :=
  Measure.pi fun _ => volume.restrict (Set.Ico (0 : ℝ) 1)

/-- Probability that `f e u = y` for independent uniform numbers `e i` and `u`. -/
noncomputable def noiseLaw {ι X : Type*} [Fintype ι] (f : (ι → ℝ) → ℝ → X) (y : X) : ℝ :=
  ((noise ι).prod (volume.restrict (Set.Ico (0 : ℝ) 1)) {w | f w.1 w.2 = y}).toReal

end Discs.Spec
