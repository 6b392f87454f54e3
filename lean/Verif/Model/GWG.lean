import Verif.Model.LocallyBalanced

/-!
# Model of `discs/samplers/gwg.py`

`h` is the configured balancing function in log scale (`applyWeightLog`; an unknown name raises before
anything else happens).  `f` and `g` are the value and the gradient returned by
`model.get_value_and_grad` on one row.  Both are arbitrary: no relation between them is used.
-/

namespace Discs

open Finset

/-- `gwg.py:56-63` `BinaryGWGSampler.get_dist_at`, one row. -/
noncomputable def gwgDist {D : ℕ} (h : ℝ → ℝ) (mask : Option (Fin D → ℝ)) (x : Fin D → ℤ)
    (grad : Fin D → ℝ) : Fin D → ℝ :=
  logSoftmax (applyMask mask fun j => h ((1 - 2 * (x j : ℝ)) * grad j))

/-- `gwg.py:65-77` `BinaryGWGSampler.sample_from_proposal`, one row:
`x.at[rows, idx].set(1 - x[rows, idx])` (all writes read the old `x`, so repeated indices write the
same value). -/
def gwgPropose {D k : ℕ} (x : Fin D → ℤ) (idx : Fin k → Fin D) : Fin D → ℤ :=
  fun j => if ∃ i, idx i = j then 1 - x j else x j

/-- `gwg.py:49-54` `BinaryGWGSampler.get_ll_onestep`, one row (`aux` is a `(B, k)` index matrix and the
row index has shape `(B, 1)`, so row `b` reads its own indices). -/
noncomputable def gwgLl {D k : ℕ} (dist : Fin D → ℝ) (idx : Fin k → Fin D) : ℝ := ∑ i, dist (idx i)

/-- `gwg.py:14-39` `step` of `BinaryGWGSampler`.  The reverse indices are the forward ones
(line 77). -/
noncomputable def gwgBinaryStep {B D k : ℕ} (tiny : ℝ) (h : ℝ → ℝ) (f : (Fin D → ℤ) → ℝ)
    (g : (Fin D → ℤ) → Fin D → ℝ) (mask : Option (Fin B → Fin D → ℝ)) (x : Fin B → Fin D → ℤ)
    (idx : Fin B → Fin k → Fin D) (u : Fin B → ℝ) (s : LBState) :
    (Fin B → Fin D → ℤ) × LBState × ℝ :=
  let distX := fun b => gwgDist h (mask.map (· b)) (x b) (g (x b))
  let y := fun b => gwgPropose (x b) (idx b)
  let llX2y := fun b => gwgLl (distX b) (idx b)
  let distY := fun b => gwgDist h (mask.map (· b)) (y b) (g (y b))
  let llY2x := fun b => gwgLl (distY b) (idx b)
  let logAcc := fun b => f (y b) + llY2x b - f (x b) - llX2y b
  let r := lbSelectBinary tiny u logAcc x y s
  (r.1, { r.2 with numLlCalls := r.2.numLlCalls + 4 },
    meanB fun b => clipMax (Real.exp (logAcc b)) 1)

/-- Law of the indices drawn by one chain: independent categorical draws with logits `dist_x`
(`math_util.py:76-80`). -/
noncomputable def gwgDrawLaw {D k : ℕ} (h : ℝ → ℝ) (g : (Fin D → ℤ) → Fin D → ℝ)
    (mask : Option (Fin D → ℝ)) (x : Fin D → ℤ) (idx : Fin k → Fin D) : ℝ :=
  ∏ i, softmax (gwgDist h mask x (g x)) (idx i)

/-- Transition probabilities of one chain of the binary GWG sampler with `k = num_flips`. -/
noncomputable def gwgBinaryKernel {D : ℕ} (k : ℕ) (tiny : ℝ) (h : ℝ → ℝ) (f : (Fin D → ℤ) → ℝ)
    (g : (Fin D → ℤ) → Fin D → ℝ) (mask : Option (Fin D → ℝ)) (s : LBState) (x y : Fin D → ℤ) : ℝ :=
  Spec.lawU (gwgDrawLaw (k := k) h g mask x) (fun idx u =>
    (gwgBinaryStep tiny h f g (mask.map fun m (_ : Fin 1) => m) (fun _ : Fin 1 => x)
      (fun _ => idx) (fun _ => u) s).1 0) y

/-! ## Adaptive GWG -/

/-- `gwg.py:108-117`: the counting draw of `multinomial(..., is_nsample_const=False)` with the default
`batch_size = 1`; `idx t` is the draw of loop iteration `t`. -/
def gwgSelected {D ns : ℕ} (hns : 0 < ns) (idx : Fin ns → Fin D) : Fin D → ℕ :=
  multinomialCounts 1 one_pos ns (fun t _ => if ht : t < ns then idx ⟨t, ht⟩ else idx ⟨0, hns⟩)

/-- `gwg.py:117-121`: `x * (1 - indicator) + indicator * (1 - x)`. -/
def gwgProposeAdaptive {D : ℕ} (x : Fin D → ℤ) (selected : Fin D → ℕ) : Fin D → ℤ :=
  fun j =>
    let indicator : ℤ := if selected j > 0 then 1 else 0
    x j * (1 - indicator) + indicator * (1 - x j)

/-- `gwg.py:103-106` `AdaptiveGWGSampler.get_ll_onestep`, one row. -/
noncomputable def gwgLlAdaptive {D : ℕ} (dist : Fin D → ℝ) (selected : Fin D → ℕ) : ℝ :=
  ∑ j, dist j * selected j

/-- `numFlips` is at least one on a non-empty sample, so the counting loop makes a draw. -/
theorem numFlips_pos {D : ℕ} (hD : 0 < D) (r : ℝ) : 0 < numFlips D r := by
  unfold numFlips
  omega

/-- `gwg.py:80-122` `step` of `AdaptiveGWGSampler`.  `idx b` are the draws of chain `b` (their number
is the rounded radius of the state). -/
noncomputable def gwgAdaptiveStep {B D : ℕ} (hD : 0 < D) (target tiny : ℝ) (h : ℝ → ℝ)
    (f : (Fin D → ℤ) → ℝ) (g : (Fin D → ℤ) → Fin D → ℝ) (mask : Option (Fin B → Fin D → ℝ))
    (x : Fin B → Fin D → ℤ) (s : LBState) (idx : Fin B → Fin (numFlips D s.radius) → Fin D)
    (u : Fin B → ℝ) : (Fin B → Fin D → ℤ) × LBState × ℝ :=
  let distX := fun b => gwgDist h (mask.map (· b)) (x b) (g (x b))
  let selected := fun b => gwgSelected (numFlips_pos hD s.radius) (idx b)
  let y := fun b => gwgProposeAdaptive (x b) (selected b)
  let llX2y := fun b => gwgLlAdaptive (distX b) (selected b)
  let distY := fun b => gwgDist h (mask.map (· b)) (y b) (g (y b))
  let llY2x := fun b => gwgLlAdaptive (distY b) (selected b)
  let logAcc := fun b => f (y b) + llY2x b - f (x b) - llX2y b
  let r := lbSelectBinary tiny u logAcc x y s
  (r.1, { r.2 with
      numLlCalls := r.2.numLlCalls + 4
      radius := adaptRadius target D logAcc s.radius },
    meanB fun b => clipMax (Real.exp (logAcc b)) 1)

/-- Transition probabilities of one chain of the adaptive GWG sampler at sampler state `s`. -/
noncomputable def gwgAdaptiveKernel {D : ℕ} (hD : 0 < D) (target tiny : ℝ) (h : ℝ → ℝ)
    (f : (Fin D → ℤ) → ℝ) (g : (Fin D → ℤ) → Fin D → ℝ) (mask : Option (Fin D → ℝ)) (s : LBState)
    (x y : Fin D → ℤ) : ℝ :=
  Spec.lawU (gwgDrawLaw (k := numFlips D s.radius) h g mask x) (fun idx u =>
    (gwgAdaptiveStep hD target tiny h f g (mask.map fun m (_ : Fin 1) => m) (fun _ : Fin 1 => x) s
      (fun _ => idx) (fun _ => u)).1 0) y

/-! ## Categorical GWG

The model is evaluated on one-hot rows.  Proposal indices are flat: `n = site * C + category`. -/

/-- `gwg.py:137-143` `CategoricalGWGSampler.get_dist_at`, one row; the mask is ignored. -/
noncomputable def cgwgDist {D C : ℕ} (h : ℝ → ℝ) (x grad : Fin D → Fin C → ℝ) : Fin (D * C) → ℝ :=
  logSoftmax fun n =>
    h (grad n.divNat n.modNat - ∑ c, grad n.divNat c * x n.divNat c) - x n.divNat n.modNat * 1e9

/-- `gwg.py:153-158`: `x_int.at[b, idx // C].set(idx % C)`, one row. -/
def cgwgPropose {D C : ℕ} (x : Fin D → ℤ) (n : Fin (D * C)) : Fin D → ℤ :=
  fun j => if j = n.divNat then ((n.modNat : ℕ) : ℤ) else x j

/-- `gwg.py:159-160` the reverse index: `idx_i * C + sum(where(x != y, 1, 0) * x)`. -/
def cgwgRevIdx {D C : ℕ} (x : Fin D → ℤ) (n : Fin (D * C)) : ℤ :=
  (((n.divNat : ℕ) * C : ℕ) : ℤ) +
    ∑ j, (if x j ≠ cgwgPropose x n j then 1 else 0) * x j

/-- A gather `v[i]` along an axis of length `n`: indices beyond the end are clamped (JAX); the
negative-index rule is not needed (the reverse index is non-negative for valid samples). -/
noncomputable def gatherClamp {n : ℕ} (v : Fin n → ℝ) (i : ℤ) : ℝ :=
  if h : 0 < n then v ⟨min i.toNat (n - 1), by omega⟩ else 0

/-- `gwg.py:165-170` `CategoricalGWGSampler.get_ll_onestep`: the row index has shape `(B, 1)` and the
column index shape `(B,)`, so the gather has shape `(B, B)` and row `b` sums its log-probabilities of
the indices of **all** chains. -/
noncomputable def cgwgLl {B N : ℕ} (dist : Fin B → Fin N → ℝ) (aux : Fin B → ℤ) : Fin B → ℝ :=
  fun b => ∑ b', gatherClamp (dist b) (aux b')

/-- `gwg.py:14-39,125-170` `step` of `CategoricalGWGSampler`. -/
noncomputable def cgwgStep {B D : ℕ} (tiny : ℝ) (h : ℝ → ℝ) (C : ℕ)
    (f : (Fin D → Fin C → ℝ) → ℝ) (g : (Fin D → Fin C → ℝ) → Fin D → Fin C → ℝ)
    (xi : Fin B → Fin D → ℤ) (idx : Fin B → Fin (D * C)) (u : Fin B → ℝ) (s : LBState) :
    (Fin B → Fin D → ℤ) × LBState × ℝ :=
  let x := fun b => oneHotRow C (xi b)
  let distX := fun b => cgwgDist h (x b) (g (x b))
  let xInt := fun b => argmaxRow (x b)
  let yInt := fun b => cgwgPropose (xInt b) (idx b)
  let y := fun b => oneHotRow C (yInt b)
  let llX2y := cgwgLl distX (fun b => ((idx b : ℕ) : ℤ))
  let distY := fun b => cgwgDist h (y b) (g (y b))
  let llY2x := cgwgLl distY (fun b => cgwgRevIdx (xInt b) (idx b))
  let logAcc := fun b => f (y b) + llY2x b - f (x b) - llX2y b
  let r := lbSelectCateg tiny u logAcc x y s
  (r.1, { r.2 with numLlCalls := r.2.numLlCalls + 4 },
    meanB fun b => clipMax (Real.exp (logAcc b)) 1)

/-- Transition probabilities of one chain run on its own (`B = 1`). -/
noncomputable def cgwgKernel {D : ℕ} (tiny : ℝ) (h : ℝ → ℝ) (C : ℕ)
    (f : (Fin D → Fin C → ℝ) → ℝ) (g : (Fin D → Fin C → ℝ) → Fin D → Fin C → ℝ) (s : LBState)
    (x y : Fin D → ℤ) : ℝ :=
  Spec.lawU (softmax (cgwgDist h (oneHotRow C x) (g (oneHotRow C x)))) (fun n u =>
    (cgwgStep tiny h C f g (fun _ : Fin 1 => x) (fun _ => n) (fun _ => u) s).1 0) y

/-- The three samplers of `gwg.py:173-180` `build_sampler`. -/
inductive GWGClass
  | binary | adaptive | categorical
  deriving DecidableEq

/-- `gwg.py:173-180` `build_sampler`. -/
def gwgBuild (numCategories : ℕ) (adaptive : Option Bool) : GWGClass :=
  if numCategories = 2 then
    if adaptive.getD false then .adaptive else .binary
  else .categorical

end Discs
