import Mathlib.Data.Fin.Basic

/-!
# Non-interference between the chains of a batch
-/

namespace Discs.Spec

/-- Changing the rest of the batch (even its size) does not change the new value of a chain: two
batches that agree on one chain's sample and random draws give that chain the same result. -/
def ChainLocal {X W Y : Type*} (step : ∀ B : ℕ, (Fin B → X) → (Fin B → W) → Fin B → Y) : Prop :=
  ∀ (B B' : ℕ) (x : Fin B → X) (x' : Fin B' → X) (w : Fin B → W) (w' : Fin B' → W) (b : Fin B)
    (b' : Fin B'), x b = x' b' → w b = w' b' → step B x w b = step B' x' w' b'

/-- A step computed row by row is local. -/
theorem ChainLocal.of_row {X W Y : Type*} {step : ∀ B : ℕ, (Fin B → X) → (Fin B → W) → Fin B → Y}
    (r : X → W → Y) (h : ∀ B x w b, step B x w b = r (x b) (w b)) : ChainLocal step := by
  intro B B' x x' w w' b b' hx hw
  rw [h, h, hx, hw]

end Discs.Spec
