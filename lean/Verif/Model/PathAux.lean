import Mathlib.Data.Fin.Rev
import Verif.Model.GWG
import Verif.Spec.Draws

/-!
# Model of `discs/samplers/path_auxiliary.py`

`h` is the balancing function in log scale; `lr x` are the local log-ratios at `x`: either
gradient-based (`lr x j = (1 - 2 x j) * grad j`, lines 72-77) or returned by the model's
`logratio_in_neighborhood` (lines 79-81).  All statements are for arbitrary `lr`.

Draws.  `math.multinomial(..., replacement=False)` perturbs the site log-probabilities with Gumbel noise and
sorts.  The draw of the fixed variant is the list of the `num_flips` best indices, best first
(`topK`); the draw of the adaptive variant is the whole order of the sites, best first, as a
permutation `σ` (`σ 0` is the best site): mask and reverse order are functions of it (see
`selectedMask_spec` for the mask form computed from scores).  Their law is that of drawing sites one after
another without replacement.
-/

namespace Discs

open Finset

variable {D : ℕ}

/-! ## Local distributions -/

/-- `path_auxiliary.py:70-88` `get_local_dist`, binary, one row. -/
noncomputable def pafsLogProb (h : ℝ → ℝ) (lr : (Fin D → ℤ) → Fin D → ℝ) (mask : Option (Fin D → ℝ))
    (x : Fin D → ℤ) : Fin D → ℝ :=
  logSoftmax (applyMask mask fun j => h (lr x j))

/-- `path_auxiliary.py:70-88` `get_local_dist`, categorical, one row of one-hot vectors: the mask
(expanded to the category axis, lines 17-18), then the current category gets `-1e9`, then
`log_softmax` over all (site, category) pairs. -/
noncomputable def pafsCategLogProb {C : ℕ} (h : ℝ → ℝ) (lr : (Fin D → Fin C → ℝ) → Fin D → Fin C → ℝ)
    (mask : Option (Fin D → ℝ)) (x : Fin D → Fin C → ℝ) : Fin D × Fin C → ℝ :=
  logSoftmax fun jc =>
    applyMask (mask.map fun m jc => m jc.1) (fun jc : Fin D × Fin C => h (lr x jc.1 jc.2)) jc *
      (1 - x jc.1 jc.2) + x jc.1 jc.2 * -1e9

/-- `path_auxiliary.py:101-103`, `142-144`: site log-probabilities. -/
noncomputable def pafsSite {C : ℕ} (lp : Fin D × Fin C → ℝ) : Fin D → ℝ :=
  fun j => logsumexp fun c => lp (j, c)

/-- `path_auxiliary.py:104`, `145`: log-probabilities of the new category given the site. -/
noncomputable def pafsVal {C : ℕ} (lp : Fin D × Fin C → ℝ) : Fin D → Fin C → ℝ :=
  fun j => logSoftmax fun c => lp (j, c)

/-! ## Fixed number of flips -/

/-- `math_util.py:84-88` with `replacement=False`, summed (`path_auxiliary.py:133`): the
log-likelihoods of the drawn indices, renormalised when more than one is drawn.  (`unbotD` is never
used on `-inf` when the indices are distinct.) -/
noncomputable def pafsLlIdx {k : ℕ} (lp : Fin D → ℝ) (idx : Fin k → Fin D) : ℝ :=
  let ll : Fin k → WithBot ℝ := fun i => ((lp (idx i) : ℝ) : WithBot ℝ)
  ∑ i, (if k > 1 then renormalize ll i else ll i).unbotD 0

/-- `path_auxiliary.py:159-161`, `169`: the reversed trajectory, always renormalised. -/
noncomputable def pafsLlRev {k : ℕ} (lp : Fin D → ℝ) (idx : Fin k → Fin D) : ℝ :=
  ∑ i, (renormalize (fun i => ((lp (idx i.rev) : ℝ) : WithBot ℝ)) i).unbotD 0

/-- `path_auxiliary.py:54-63` `select_sample`, the state part; `calls` is
`num_calls_forward + num_calls_backward`. -/
noncomputable def pafsSelectState {B : ℕ} (adaptive : Bool) (target : ℝ) (dim calls : ℕ)
    (logAcc : Fin B → ℝ) (s : LBState) : LBState :=
  let s' : LBState := { s with steps := s.steps + 1, numLlCalls := s.numLlCalls + calls }
  if adaptive then { s' with radius := adaptRadius target dim logAcc s.radius } else s'

/-- `path_auxiliary.py:65-68` `make_init_state`. -/
def pafsInit (numFlips : ℕ) : LBState := ⟨0, 0, numFlips⟩

/-- `path_auxiliary.py:14-33` `step`, binary, fixed number of flips.  `calls` are the model
evaluations reported by the two `get_local_dist` calls (`2 + 2` with gradients). -/
noncomputable def pafsBinaryStep {B k : ℕ} (tiny : ℝ) (calls : ℕ) (h : ℝ → ℝ) (f : (Fin D → ℤ) → ℝ)
    (lr : (Fin D → ℤ) → Fin D → ℝ) (mask : Option (Fin B → Fin D → ℝ)) (x : Fin B → Fin D → ℤ)
    (idx : Fin B → Fin k → Fin D) (u : Fin B → ℝ) (s : LBState) :
    (Fin B → Fin D → ℤ) × LBState × ℝ :=
  let y := fun b => gwgPropose (x b) (idx b)
  let llX2y := fun b => pafsLlIdx (pafsLogProb h lr (mask.map (· b)) (x b)) (idx b)
  let llY2x := fun b => pafsLlRev (pafsLogProb h lr (mask.map (· b)) (y b)) (idx b)
  let logAcc := fun b => f (y b) + llY2x b - f (x b) - llX2y b
  let r := lbSelectBinary tiny u logAcc x y s
  (r.1, pafsSelectState false 0 D calls logAcc s, meanB fun b => clipMax (Real.exp (logAcc b)) 1)

/-- Law of the drawn indices: one after another without replacement, with the site probabilities. -/
noncomputable def pafsIdxLaw {k : ℕ} (lp : Fin D → ℝ) (idx : Fin k → Fin D) : ℝ :=
  Spec.seqDraw (fun j => Real.exp (lp j)) ∅ (List.ofFn idx)

/-- Transition probabilities of one chain, binary, fixed number of flips. -/
noncomputable def pafsBinaryKernel (k : ℕ) (tiny : ℝ) (h : ℝ → ℝ) (f : (Fin D → ℤ) → ℝ)
    (lr : (Fin D → ℤ) → Fin D → ℝ) (mask : Option (Fin D → ℝ)) (s : LBState) (x y : Fin D → ℤ) : ℝ :=
  Spec.lawU (pafsIdxLaw (pafsLogProb h lr mask x)) (fun (idx : Fin k → Fin D) u =>
    (pafsBinaryStep tiny 4 h f lr (mask.map fun m (_ : Fin 1) => m) (fun _ => x) (fun _ => idx)
      (fun _ => u) s).1 0) y

open Classical in
/-- `path_auxiliary.py:122-130`, categorical: `x.at[rows, idx].set(one_hot(new_val))` on integer
rows (one-hot encoding is applied before and after).  The indices are distinct. -/
noncomputable def setVals {k C : ℕ} (x : Fin D → ℤ) (idx : Fin k → Fin D) (val : Fin k → Fin C) :
    Fin D → ℤ := fun j =>
  if hj : ∃ i, idx i = j then ((val hj.choose : ℕ) : ℤ) else x j

/-- `path_auxiliary.py:14-33` `step`, categorical, fixed number of flips.  The forward log-likelihood is
that of the sites only (line 133: `ll_selected` without the value log-probabilities), the
backward one includes the value log-probabilities (lines 162-171). -/
noncomputable def pafsCategStep {B k : ℕ} (tiny : ℝ) (calls : ℕ) (h : ℝ → ℝ) (C : ℕ)
    (f : (Fin D → Fin C → ℝ) → ℝ) (lr : (Fin D → Fin C → ℝ) → Fin D → Fin C → ℝ)
    (mask : Option (Fin B → Fin D → ℝ)) (xi : Fin B → Fin D → ℤ) (idx : Fin B → Fin k → Fin D)
    (val : Fin B → Fin k → Fin C) (u : Fin B → ℝ) (s : LBState) :
    (Fin B → Fin D → ℤ) × LBState × ℝ :=
  let x := fun b => oneHotRow C (xi b)
  let y := fun b => oneHotRow C (setVals (xi b) (idx b) (val b))
  let llX2y := fun b => pafsLlIdx (pafsSite (pafsCategLogProb h lr (mask.map (· b)) (x b))) (idx b)
  let llY2x := fun b =>
    let lp := pafsCategLogProb h lr (mask.map (· b)) (y b)
    pafsLlRev (pafsSite lp) (idx b) +
      ∑ i, ∑ c, x b (idx b (Fin.rev i)) c * pafsVal lp (idx b (Fin.rev i)) c
  let logAcc := fun b => f (y b) + llY2x b - f (x b) - llX2y b
  let r := lbSelectCateg tiny u logAcc x y s
  (r.1, pafsSelectState false 0 D calls logAcc s, meanB fun b => clipMax (Real.exp (logAcc b)) 1)

/-- Law of the drawn sites and of the new value at each of them (line 126). -/
noncomputable def pafsCategLaw {k C : ℕ} (lp : Fin D × Fin C → ℝ) (w : (Fin k → Fin D) × (Fin k → Fin C)) :
    ℝ :=
  pafsIdxLaw (pafsSite lp) w.1 * ∏ i, softmax (pafsVal lp (w.1 i)) (w.2 i)

/-- Transition probabilities of one chain, categorical, fixed number of flips. -/
noncomputable def pafsCategKernel (k : ℕ) (tiny : ℝ) (h : ℝ → ℝ) (C : ℕ)
    (f : (Fin D → Fin C → ℝ) → ℝ) (lr : (Fin D → Fin C → ℝ) → Fin D → Fin C → ℝ)
    (mask : Option (Fin D → ℝ)) (s : LBState) (x y : Fin D → ℤ) : ℝ :=
  Spec.lawU (pafsCategLaw (pafsCategLogProb h lr mask (oneHotRow C x)))
    (fun (w : (Fin k → Fin D) × (Fin k → Fin C)) u =>
      (pafsCategStep tiny 4 h C f lr (mask.map fun m (_ : Fin 1) => m) (fun _ => x) (fun _ => w.1)
        (fun _ => w.2) (fun _ => u) s).1 0) y

/-! ## Adaptive number of flips -/

/-- The mask of selected sites (`math_util.py:121-125`): the `ns` best ones in the order `σ`. -/
def orderMask (ns : ℕ) (σ : Equiv.Perm (Fin D)) (j : Fin D) : Bool := decide ((σ.symm j : ℕ) < ns)

/-- `math_util.py:135-146`: log-likelihoods sorted best first, renormalised, scattered back to the
sites and masked. -/
noncomputable def pafsLlSel (lp : Fin D → ℝ) (ns : ℕ) (σ : Equiv.Perm (Fin D)) (j : Fin D) : ℝ :=
  (renormalize (fun i => ((lp (σ i) : ℝ) : WithBot ℝ)) (σ.symm j)).unbotD 0 *
    (if orderMask ns σ j then 1 else 0)

/-- `path_auxiliary.py:152-157`: worst first (`argsort` of the perturbed scores), unselected sites
at `-1e18`, renormalised, summed over the selected positions.  `-1e18` is read as `-inf`: `exp` of it is
exactly `0` in floating point, and the entries of unselected sites are replaced by `0` in line 157. -/
noncomputable def pafsLlBack (lp : Fin D → ℝ) (ns : ℕ) (σ : Equiv.Perm (Fin D)) : ℝ :=
  let backIdx : Fin D → Fin D := fun i => σ i.rev
  let masked : Fin D → WithBot ℝ := fun j => if orderMask ns σ j then ((lp j : ℝ) : WithBot ℝ) else ⊥
  ∑ i, if orderMask ns σ (backIdx i) then
    (renormalize (fun i => masked (backIdx i)) i).unbotD 0 else 0

/-- `path_auxiliary.py:119-120`, binary: `x * (1 - mask) + mask * (1 - x)`. -/
def maskFlip (x : Fin D → ℤ) (m : Fin D → Bool) : Fin D → ℤ := fun j =>
  let mj : ℤ := if m j then 1 else 0
  x j * (1 - mj) + mj * (1 - x j)

/-- `path_auxiliary.py:14-33` `step`, binary, adaptive. -/
noncomputable def pafsAdaptiveStep {B : ℕ} (target tiny : ℝ) (calls : ℕ) (h : ℝ → ℝ)
    (f : (Fin D → ℤ) → ℝ) (lr : (Fin D → ℤ) → Fin D → ℝ) (mask : Option (Fin B → Fin D → ℝ))
    (x : Fin B → Fin D → ℤ) (σ : Fin B → Equiv.Perm (Fin D)) (u : Fin B → ℝ) (s : LBState) :
    (Fin B → Fin D → ℤ) × LBState × ℝ :=
  let ns := numFlips D s.radius
  let y := fun b => maskFlip (x b) (orderMask ns (σ b))
  let llX2y := fun b => ∑ j, pafsLlSel (pafsLogProb h lr (mask.map (· b)) (x b)) ns (σ b) j
  let llY2x := fun b => pafsLlBack (pafsLogProb h lr (mask.map (· b)) (y b)) ns (σ b)
  let logAcc := fun b => f (y b) + llY2x b - f (x b) - llX2y b
  let r := lbSelectBinary tiny u logAcc x y s
  (r.1, pafsSelectState true target D calls logAcc s, meanB fun b => clipMax (Real.exp (logAcc b)) 1)

/-- Law of the order of the perturbed site scores. -/
noncomputable def pafsOrderLaw (lp : Fin D → ℝ) (σ : Equiv.Perm (Fin D)) : ℝ :=
  Spec.seqDraw (fun j => Real.exp (lp j)) ∅ (List.ofFn σ)

/-- Transition probabilities of one chain, binary, adaptive, at the radius in the state. -/
noncomputable def pafsAdaptiveKernel (target tiny : ℝ) (h : ℝ → ℝ) (f : (Fin D → ℤ) → ℝ)
    (lr : (Fin D → ℤ) → Fin D → ℝ) (mask : Option (Fin D → ℝ)) (s : LBState) (x y : Fin D → ℤ) : ℝ :=
  Spec.lawU (pafsOrderLaw (pafsLogProb h lr mask x)) (fun σ u =>
    (pafsAdaptiveStep target tiny 4 h f lr (mask.map fun m (_ : Fin 1) => m) (fun _ => x) (fun _ => σ)
      (fun _ => u) s).1 0) y

/-- `path_auxiliary.py:112-120`, categorical: a new value is drawn at every site and used at the
selected ones. -/
def maskSet {C : ℕ} (x : Fin D → ℤ) (m : Fin D → Bool) (v : Fin D → Fin C) : Fin D → ℤ := fun j =>
  if m j then ((v j : ℕ) : ℤ) else x j

/-- `path_auxiliary.py:14-33` `step`, categorical, adaptive: value log-probabilities at the selected
sites are included in both directions (lines 115-117, 149-151, 170-171). -/
noncomputable def pafsCategAdaptiveStep {B : ℕ} (target tiny : ℝ) (calls : ℕ) (h : ℝ → ℝ) (C : ℕ)
    (f : (Fin D → Fin C → ℝ) → ℝ) (lr : (Fin D → Fin C → ℝ) → Fin D → Fin C → ℝ)
    (mask : Option (Fin B → Fin D → ℝ)) (xi : Fin B → Fin D → ℤ) (σ : Fin B → Equiv.Perm (Fin D))
    (v : Fin B → Fin D → Fin C) (u : Fin B → ℝ) (s : LBState) :
    (Fin B → Fin D → ℤ) × LBState × ℝ :=
  let ns := numFlips D s.radius
  let x := fun b => oneHotRow C (xi b)
  let y := fun b => oneHotRow C (maskSet (xi b) (orderMask ns (σ b)) (v b))
  let llX2y := fun b =>
    let lp := pafsCategLogProb h lr (mask.map (· b)) (x b)
    ∑ j, (pafsLlSel (pafsSite lp) ns (σ b) j +
      (∑ c, oneHot C ((v b j : ℕ) : ℤ) c * pafsVal lp j c) * (if orderMask ns (σ b) j then 1 else 0))
  let llY2x := fun b =>
    let lp := pafsCategLogProb h lr (mask.map (· b)) (y b)
    pafsLlBack (pafsSite lp) ns (σ b) +
      ∑ j, (∑ c, x b j c * pafsVal lp j c) * (if orderMask ns (σ b) j then 1 else 0)
  let logAcc := fun b => f (y b) + llY2x b - f (x b) - llX2y b
  let r := lbSelectCateg tiny u logAcc x y s
  (r.1, pafsSelectState true target D calls logAcc s, meanB fun b => clipMax (Real.exp (logAcc b)) 1)

/-- Law of the order of the sites and of the values drawn at all sites (line 113). -/
noncomputable def pafsCategAdaptiveLaw {C : ℕ} (lp : Fin D × Fin C → ℝ)
    (w : Equiv.Perm (Fin D) × (Fin D → Fin C)) : ℝ :=
  pafsOrderLaw (pafsSite lp) w.1 * ∏ j, softmax (pafsVal lp j) (w.2 j)

/-- Transition probabilities of one chain, categorical, adaptive, at the radius in the state. -/
noncomputable def pafsCategAdaptiveKernel (target tiny : ℝ) (h : ℝ → ℝ) (C : ℕ)
    (f : (Fin D → Fin C → ℝ) → ℝ) (lr : (Fin D → Fin C → ℝ) → Fin D → Fin C → ℝ)
    (mask : Option (Fin D → ℝ)) (s : LBState) (x y : Fin D → ℤ) : ℝ :=
  Spec.lawU (pafsCategAdaptiveLaw (pafsCategLogProb h lr mask (oneHotRow C x))) (fun w u =>
    (pafsCategAdaptiveStep target tiny 4 h C f lr (mask.map fun m (_ : Fin 1) => m) (fun _ => x)
      (fun _ => w.1) (fun _ => w.2) (fun _ => u) s).1 0) y

/-- `path_auxiliary.py:175-179` `build_sampler`: only the fast path exists. -/
def pafsBuild (useFastPath : Bool) : Except String Unit :=
  if useFastPath then .ok () else .error "NotImplementedError"

end Discs
