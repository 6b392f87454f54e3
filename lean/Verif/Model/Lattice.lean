import Verif.Model.Jax
import Mathlib.Analysis.SpecialFunctions.Trigonometric.Basic

/-!
# Model of the lattice energies `discs/models/ising.py` and `discs/models/potts.py`

One sample is an array `H × W`.  `x.at[slice].set(...)` writes into an array of the dtype of `x`
(`zeros_like(x)`): for float samples the written values are kept, for integer samples they are
converted, i.e. truncated toward zero.  The conversion is the argument `cast`.
-/

namespace Discs

open Finset

/-- float → int32 conversion: truncation toward zero (no overflow). -/
noncomputable def truncZero (z : ℝ) : ℝ := if 0 ≤ z then (⌊z⌋ : ℝ) else (⌈z⌉ : ℝ)

/-- An `H × W` array of numbers. -/
abbrev Grid (H W : ℕ) := Fin H → Fin W → ℝ

/-- `m.at[:, :-1, :].set(m[:, :-1, :] + s[:, 1:, :] * w)` with `w = weights[:-1, :]`
(`ising.py:52-54`, `potts.py:73-75`): every row but the last receives from the row below. -/
def recvDown {H W : ℕ} (cast : ℝ → ℝ) (s w m : Grid H W) : Grid H W := fun r c =>
  if h : r.val + 1 < H then cast (m r c + s ⟨r + 1, h⟩ c * w r c) else m r c

/-- `m.at[:, 1:, :].set(m[:, 1:, :] + s[:, :-1, :] * w)` with `w = weights[:-1, :]`
(`ising.py:55-57`, `potts.py:76-78`): every row but the first receives from the row above. -/
def recvUp {H W : ℕ} (cast : ℝ → ℝ) (s w m : Grid H W) : Grid H W := fun r c =>
  if 1 ≤ r.val then
    cast (m r c + s ⟨r - 1, by omega⟩ c * w ⟨r - 1, by omega⟩ c)
  else m r c

/-- `m.at[:, :, :-1].set(m[:, :, :-1] + s[:, :, 1:] * w)` with `w = weights[:, :-1]`
(`ising.py:58-60`, `potts.py:67-69`). -/
def recvRight {H W : ℕ} (cast : ℝ → ℝ) (s w m : Grid H W) : Grid H W := fun r c =>
  if h : c.val + 1 < W then cast (m r c + s r ⟨c + 1, h⟩ * w r c) else m r c

/-- `m.at[:, :, 1:].set(m[:, :, 1:] + s[:, :, :-1] * w)` with `w = weights[:, :-1]`
(`ising.py:61-63`, `potts.py:70-72`). -/
def recvLeft {H W : ℕ} (cast : ℝ → ℝ) (s w m : Grid H W) : Grid H W := fun r c =>
  if 1 ≤ c.val then
    cast (m r c + s r ⟨c - 1, by omega⟩ * w r ⟨c - 1, by omega⟩)
  else m r c

/-- `Ising.forward` (`ising.py:46-67`) on one sample; `wh, wv, wb` are `params[0], params[1],
params[2]`. -/
noncomputable def isingForwardCast {H W : ℕ} (cast : ℝ → ℝ) (wh wv wb : Grid H W) (x : Grid H W) :
    ℝ :=
  let s : Grid H W := fun r c => 2 * x r c - 1
  let m0 : Grid H W := fun _ _ => 0
  let m1 := recvDown cast s wv m0
  let m2 := recvUp cast s wv m1
  let m3 := recvRight cast s wh m2
  let m4 := recvLeft cast s wh m3;
  -∑ r, ∑ c, s r c * (m4 r c / 2 + wb r c)

/-- `Ising.forward` on a float array: what `get_value_and_grad` evaluates (`ising.py:69-77`). -/
noncomputable def isingForward {H W : ℕ} (wh wv wb : Grid H W) (x : Grid H W) : ℝ :=
  isingForwardCast id wh wv wb x

/-- `Ising.forward` on an integer array: what the samplers evaluate when they call `model.forward`
on the int32 chain state. -/
noncomputable def isingForwardInt {H W : ℕ} (wh wv wb : Grid H W) (x : Fin H → Fin W → ℤ) : ℝ :=
  isingForwardCast truncZero wh wv wb fun r c => (x r c : ℝ)

/-- The disc test of `make_init_params` (`ising.py:28-34`, `potts.py:36-42`). -/
noncomputable def innerOuter (H W : ℕ) (r : Fin H) (c : Fin W) : ℝ :=
  if ((r : ℝ) / H - 0.5) ^ 2 + ((c : ℝ) / W - 0.5) ^ 2 < 0.5 / Real.pi then 1 else -1

/-- Local fields of `Ising.make_init_params` (`ising.py:24-35`); `u` is the uniform draw. -/
noncomputable def isingInitB {H W : ℕ} (sigma mu : ℝ) (u : Grid H W) : Grid H W := fun r c =>
  (2 * u r c - 1) * sigma + mu * innerOuter H W r c

/-- Couplings of `Ising.make_init_params` (`ising.py:21-22`). -/
def isingInitW {H W : ℕ} (lambdaa : ℝ) : Grid H W := fun _ _ => -lambdaa

/-- `Potts.forward` (`potts.py:59-83`) on one one-hot encoded sample `x[r, c, k]`, of which the
`k`-th slice is `fun r c => x r c k`; the updates act on each category separately. -/
noncomputable def pottsNet {H W C : ℕ} (wh wv wb : Fin H → Fin W → Fin C → ℝ)
    (x : Fin H → Fin W → Fin C → ℝ) : ℝ :=
  let slice (a : Fin H → Fin W → Fin C → ℝ) (k : Fin C) : Grid H W := fun r c => a r c k
  let l0 : Fin C → Grid H W := fun _ _ _ => 0
  let l1 := fun k => recvRight id (slice x k) (slice wh k) (l0 k)
  let l2 := fun k => recvLeft id (slice x k) (slice wh k) (l1 k)
  let l3 := fun k => recvDown id (slice x k) (slice wv k) (l2 k)
  let l4 := fun k => recvUp id (slice x k) (slice wv k) (l3 k);
  -∑ r, ∑ c, ∑ k, x r c k * (l4 k r c / 2 + wb r c k)

/-- `Potts.forward` on an integer sample: one-hot first (`potts.py:61-62`). -/
noncomputable def pottsForward {H W C : ℕ} (wh wv wb : Fin H → Fin W → Fin C → ℝ)
    (x : Fin H → Fin W → ℤ) : ℝ :=
  pottsNet wh wv wb fun r c => oneHot C (x r c)

end Discs
