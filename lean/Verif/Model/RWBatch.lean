import Verif.Model.RandomWalk

/-!
# A step of a batch of adaptive random walks as draws and noise
-/

namespace Discs

variable {B D : ℕ}

/-- Law of the proposals' draws of a batch (`randomwalk.py:37-49`): the rows are independent. -/
noncomputable def rwBatchLaws (_k : ℕ) (s : RWState) (_x : Fin B → Fin D → ℤ) (d : Fin B → RWDraw 2 D) : ℝ :=
  ∏ b, rwDrawLaw 2 D s.radius (d b)

/-- Step `k` of a batch of adaptive random walks (`randomwalk.py:26-74`) with acceptance noise `u k`. -/
noncomputable def rwBatchMove (t tiny : ℝ) (f : ℕ → (Fin D → ℤ) → ℝ) (u : ℕ → Fin B → ℝ) (k : ℕ) (s : RWState)
    (x : Fin B → Fin D → ℤ) (d : Fin B → RWDraw 2 D) : (Fin B → Fin D → ℤ) × RWState :=
  let r := rwStep true t tiny (f k) 2 x d (u k) s
  (r.1, r.2.1)

end Discs
