import Verif.Model.Jax
import Verif.Spec.Markov

/-!
# Model of `discs/samplers/blockgibbs.py` (generic block Gibbs)
-/

namespace Discs

/-- `itertools.product(range(C), repeat=b)` in its order (last position varies fastest). -/
def productRepeat (C : ℕ) : (b : ℕ) → List (Fin b → ℕ)
  | 0 => [Fin.elim0]
  | b + 1 => (List.range C).flatMap fun v => (productRepeat C b).map fun t => Fin.cons v t

/-- `blockgibbs.py:15-24` `categories_iter`: the table of block assignments, with the special case
`block_size == 1` (`arange(C).reshape([-1, 1])`). -/
def categoriesIter (C b : ℕ) : List (Fin b → ℕ) :=
  if b ≠ 1 then productRepeat C b else (List.range C).map fun v => fun _ => v

/-- Sampler state (`abstractsampler.py:34-38`, `blockgibbs.py:26-30`). -/
structure BlockState where
  steps : ℕ
  numLlCalls : ℕ
  index : ℕ
deriving DecidableEq, Repr

/-- `blockgibbs.py:26-30` `make_init_state`; also `hammingball.py:48-51`. -/
def blockInit : BlockState := ⟨0, 0, 0⟩

/-- `blockgibbs.py:32-37` `update_sampler_state`. -/
def blockGibbsUpdate (C D b : ℕ) (s : BlockState) : BlockState :=
  { steps := s.steps + 1, index := (s.index + b) % D, numLlCalls := s.numLlCalls + C ^ b }

/-- One row of `x.at[:, arange(b) + start].set(vals)` (`blockgibbs.py:45-47`, `63-64`).  Positions
past the end of the row are dropped by JAX's scatter. -/
def setBlock {D b : ℕ} (x : Fin D → ℤ) (start : ℕ) (vals : Fin b → ℕ) : Fin D → ℤ :=
  fun j => if h : start ≤ (j : ℕ) ∧ (j : ℕ) - start < b then (vals ⟨(j : ℕ) - start, h.2⟩ : ℤ) else x j

/-- `blockgibbs.py:42-58` `get_ll_at_block`, one row: log-likelihood of every block assignment. -/
def blockScores {D : ℕ} (f : (Fin D → ℤ) → ℝ) (C b : ℕ) (x : Fin D → ℤ) (start : ℕ) :
    Fin (categoriesIter C b).length → ℝ :=
  fun i => f (setBlock x start ((categoriesIter C b).get i))

/-- `blockgibbs.py:39-71` `step`; `sel b` is the categorical draw of row `b` (line 61). -/
def blockGibbsStep {B D : ℕ} (C b : ℕ) (x : Fin B → Fin D → ℤ)
    (sel : Fin B → Fin (categoriesIter C b).length) (s : BlockState) :
    (Fin B → Fin D → ℤ) × BlockState × ℕ :=
  (fun r => setBlock (x r) s.index ((categoriesIter C b).get (sel r)), blockGibbsUpdate C D b s, 1)

/-- Transition probabilities of one chain (the draw has law `softmax` of the scores, line 61). -/
noncomputable def blockGibbsKernel {D : ℕ} (f : (Fin D → ℤ) → ℝ) (C b : ℕ) (s : BlockState)
    (x y : Fin D → ℤ) : ℝ :=
  Spec.law (softmax (blockScores f C b x s.index))
    (fun k => (blockGibbsStep C b (fun _ : Fin 1 => x) (fun _ => k) s).1 0) y

end Discs
