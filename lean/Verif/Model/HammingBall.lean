import Verif.Model.BlockGibbs
import Verif.Model.MathUtil

/-!
# Model of `discs/samplers/hammingball.py`

The radius bound `hamming` is the constant 1 (`hammingball.py:20`).
-/

namespace Discs

open Finset

/-- `hammingball.py:19-32` number of points at distance 1: `comb(b, 1)` for two categories,
`comb(b, 1) * (C - 1)` otherwise. `comb(b, 1)` raises for `b = 0` (factorial of -1); here only `b ≥ 1`
is used, where it is `b`. -/
def samplesPerHamming (C b : ℕ) : Except String ℕ := do
  let c ← comb b 1
  return if C = 2 then c else c * (C - 1) ^ 1

/-- `hammingball.py:21,32` `hamming_logit = [1.0, m]`, used directly as logits (line 77). -/
noncomputable def hammingLogit (m : ℕ) : Fin 2 → ℝ := ![1, (m : ℝ)]

/-- `hammingball.py:39-46` `update_sampler_state`. -/
def hbUpdate (C D b : ℕ) (s : BlockState) : BlockState :=
  { steps := s.steps + 1, index := (s.index + b) % D,
    numLlCalls := s.numLlCalls + ((C - 1) * b + 1) }

/-- One row of `x.at[r, idx].set((x[r, idx] + v) % C)` (`hammingball.py:65-67`, `94-97`).  For an
out-of-range `idx` the gather clamps but the scatter is dropped, so the row is unchanged. -/
def shiftAt {D : ℕ} (C : ℕ) (x : Fin D → ℤ) (idx : ℕ) (v : ℤ) : Fin D → ℤ :=
  fun j => if (j : ℕ) = idx then (x j + v) % (C : ℤ) else x j

/-- `hammingball.py:82-99` `generate_new_samples`: row `n` shifts block position `n / (C-1)`
(`jnp.repeat(indices, C-1)`) by `n % (C-1) + 1` (`jnp.tile(arange(1, C), b)`). -/
def hbNewSamples {D : ℕ} (C b start : ℕ) (u : Fin D → ℤ) : Fin (b * (C - 1)) → Fin D → ℤ :=
  fun n => shiftAt C u (start + (n : ℕ) / (C - 1)) (((n : ℕ) % (C - 1) + 1 : ℕ) : ℤ)

/-- `hammingball.py:112` `y_all`: the current point followed by the new samples. -/
def hbCandidates {D : ℕ} (C b start : ℕ) (u : Fin D → ℤ) : Fin (b * (C - 1) + 1) → Fin D → ℤ :=
  Fin.cons u (hbNewSamples C b start u)

/-- The draws of one chain: the radius (line 77), the block position (`choice`, lines 35-37), the
offset `1 + k` (lines 55-60), and the selected candidate (line 103). -/
abbrev HBDraw (C b : ℕ) := Fin 2 × Fin b × Fin (C - 1) × Fin (b * (C - 1) + 1)

/-- `hammingball.py:53-68,77-81`: the auxiliary point `u`, one row. `rad` is shared by the batch. -/
def hbAux {D : ℕ} (C start : ℕ) {b : ℕ} (x : Fin D → ℤ) (rad : Fin 2) (i : Fin b)
    (k : Fin (C - 1)) : Fin D → ℤ :=
  if rad = 0 then x else shiftAt C x (start + (i : ℕ)) (((k : ℕ) + 1 : ℕ) : ℤ)

/-- `hammingball.py:70-123` `step`.  `rad` is one draw for the whole batch; the loop over rows
(lines 108-121) treats every row separately. -/
def hbStep {B D : ℕ} (C b : ℕ) (x : Fin B → Fin D → ℤ) (rad : Fin 2)
    (d : Fin B → Fin b × Fin (C - 1) × Fin (b * (C - 1) + 1)) (s : BlockState) :
    (Fin B → Fin D → ℤ) × BlockState × ℕ :=
  (fun r => hbCandidates C b s.index (hbAux C s.index (x r) rad (d r).1 (d r).2.1) (d r).2.2,
    hbUpdate C D b s, 1)

/-- Law of the draws of one chain at `x`, with `m` points at distance one. -/
noncomputable def hbDrawLaw {D : ℕ} (f : (Fin D → ℤ) → ℝ) (C b m : ℕ) (s : BlockState)
    (x : Fin D → ℤ) (d : HBDraw C b) : ℝ :=
  softmax (hammingLogit m) d.1 * (1 / (b : ℝ)) * (1 / ((C - 1 : ℕ) : ℝ)) *
    softmax (fun n => f (hbCandidates C b s.index (hbAux C s.index x d.1 d.2.1 d.2.2.1) n)) d.2.2.2

/-- Transition probabilities of one chain. -/
noncomputable def hbKernel {D : ℕ} (f : (Fin D → ℤ) → ℝ) (C b m : ℕ) (s : BlockState)
    (x y : Fin D → ℤ) : ℝ :=
  Spec.law (hbDrawLaw f C b m s x)
    (fun d => (hbStep C b (fun _ : Fin 1 => x) d.1 (fun _ => d.2) s).1 0) y

end Discs
