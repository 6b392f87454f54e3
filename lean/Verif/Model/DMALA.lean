import Verif.Model.DState

/-!
# Model of `discs/samplers/dmala.py`

`h` is the balancing function in log scale, `f`, `g` the value and gradient of the model on one row.
-/

namespace Discs

open Finset

/-- `dmala.py:44-56` `set_z`, `reset_stats`: `I` indexes the entries of one row. -/
noncomputable def dmalaReset {B : ℕ} {I : Type*} [Fintype I] (w : Fin B → I → ℝ) : DStats :=
  let logZ := Real.log (meanB fun b => ∑ i, Real.exp (w b i))
  ⟨Real.log 3 - logZ, logZ⟩

/-- `dmala.py:91-99`: the step size used in the forward proposal.  (`step_size = 0` raises
`ZeroDivisionError` in Python.) -/
noncomputable def dmalaLogTau (c : DCfg) (s : DState) (loc : DStats) : Option ℝ :=
  if c.adaptive then
    if c.coOpt then some loc.logTau
    else if s.steps = 0 then some loc.logTau else s.logTau
  else some (-1 / (2 * c.stepSize))

/-- `dmala.py:106-108`: the step size used in the reverse proposal. -/
noncomputable def dmalaLogTauRev (c : DCfg) (tau : ℝ) (locY : DStats) : ℝ :=
  if c.adaptive && c.coOpt then locY.logTau else tau

/-- `dmala.py:123-128` `BinaryDMALA.get_dist_at`, one entry: the flip probability. -/
noncomputable def dmalaFlipProb (logTau w : ℝ) : ℝ :=
  let threshold := logTau + w
  let threshold := threshold - logaddexp threshold 0
  Real.exp (clipMax threshold 0)

/-- `dmala.py:84-117` `step` of `BinaryDMALA`.

If the step size is NaN every flip probability is NaN, no site flips (`uniform < NaN` is false), the
log-ratio is NaN and the acceptance test fails: every chain stays where it is and the reported
acceptance is NaN (`none`). -/
noncomputable def dmalaBinaryStep {B D : ℕ} (c : DCfg) (tiny eps : ℝ) (h : ℝ → ℝ)
    (f : (Fin D → ℤ) → ℝ) (g : (Fin D → ℤ) → Fin D → ℝ) (x : Fin B → Fin D → ℤ)
    (flip : Fin B → Fin D → Bool) (u : Fin B → ℝ) (s : DState) :
    (Fin B → Fin D → ℤ) × DState × Option ℝ :=
  let wx := fun b j => h (deltaBinary g (x b) j)
  let locX := dmalaReset wx
  match dmalaLogTau c s locX with
  | none => (x, dSelectState c s none locX, none)
  | some tau =>
    let distX := fun b j => dmalaFlipProb tau (wx b j)
    let y := fun b => flipSites (x b) (flip b)
    let llX2y := fun b => flipLl eps (distX b) (flip b)
    let wy := fun b j => h (deltaBinary g (y b) j)
    let tauY := dmalaLogTauRev c tau (dmalaReset wy)
    let distY := fun b j => dmalaFlipProb tauY (wy b j)
    let llY2x := fun b => flipLl eps (distY b) (flip b)
    let logAcc := fun b => f (y b) + llY2x b - f (x b) - llX2y b
    ((mhStep tiny u logAcc x y).1, dSelectState c s (some (dAcc logAcc)) locX,
      some (meanB fun b => clipMax (Real.exp (logAcc b)) 1))

/-- `dmala.py:145-150` `CategoricalDMALA.get_dist_at`, one site. -/
noncomputable def dmalaCategDist {C : ℕ} (logTau : ℝ) (w x : Fin C → ℝ) : Fin C → ℝ :=
  logSoftmax fun c => (logTau + w c) * (1 - x c)

/-- `dmala.py:84-117` `step` of `CategoricalDMALA`.  With a NaN step size the log-ratio is NaN and the
acceptance test fails, as in the binary case.  `aux` of the reverse move is `x` when `C > 2`
(line 110). -/
noncomputable def dmalaCategStep {B D : ℕ} (c : DCfg) (tiny : ℝ) (h : ℝ → ℝ) (C : ℕ)
    (f : (Fin D → Fin C → ℝ) → ℝ) (g : (Fin D → Fin C → ℝ) → Fin D → Fin C → ℝ)
    (xi : Fin B → Fin D → ℤ) (v : Fin B → Fin D → Fin C) (u : Fin B → ℝ) (s : DState) :
    (Fin B → Fin D → ℤ) × DState × Option ℝ :=
  let x := fun b => oneHotRow C (xi b)
  let wx := fun b j k => h (deltaCateg g (x b) j k)
  let locX := dmalaReset (I := Fin D × Fin C) fun b i => wx b i.1 i.2
  match dmalaLogTau c s locX with
  | none => (fun b => argmaxRow (x b), dSelectState c s none locX, none)
  | some tau =>
    let distX := fun b j => dmalaCategDist tau (wx b j) (x b j)
    let y := fun b => oneHotRow C (categRow (v b))
    let llX2y := fun b => categLl (distX b) (y b)
    let wy := fun b j k => h (deltaCateg g (y b) j k)
    let tauY := dmalaLogTauRev c tau (dmalaReset (I := Fin D × Fin C) fun b i => wy b i.1 i.2)
    let distY := fun b j => dmalaCategDist tauY (wy b j) (y b j)
    let aux := fun b => if C > 2 then x b else y b
    let llY2x := fun b => categLl (distY b) (aux b)
    let logAcc := fun b => f (y b) + llY2x b - f (x b) - llX2y b
    (fun b => argmaxRow ((mhStep tiny u logAcc x y).1 b),
      dSelectState c s (some (dAcc logAcc)) locX,
      some (meanB fun b => clipMax (Real.exp (logAcc b)) 1))

/-- Step size of a chain run on its own (`B = 1`) at sample `x`. -/
noncomputable def dmalaTau1 {D : ℕ} (c : DCfg) (h : ℝ → ℝ) (g : (Fin D → ℤ) → Fin D → ℝ) (s : DState)
    (x : Fin D → ℤ) : Option ℝ :=
  dmalaLogTau c s (dmalaReset fun (_ : Fin 1) j => h (deltaBinary g x j))

/-- Law of the flips of one chain: Bernoulli with the proposal's flip probabilities (never true when
they are NaN). -/
noncomputable def dmalaFlipLaw {D : ℕ} (c : DCfg) (h : ℝ → ℝ) (g : (Fin D → ℤ) → Fin D → ℝ)
    (s : DState) (x : Fin D → ℤ) : (Fin D → Bool) → ℝ :=
  match dmalaTau1 c h g s x with
  | none => fun flip => if flip = fun _ => false then 1 else 0
  | some tau => flipLaw fun j => dmalaFlipProb tau (h (deltaBinary g x j))

/-- Transition probabilities of one chain of binary DMALA. -/
noncomputable def dmalaBinaryKernel {D : ℕ} (c : DCfg) (tiny eps : ℝ) (h : ℝ → ℝ)
    (f : (Fin D → ℤ) → ℝ) (g : (Fin D → ℤ) → Fin D → ℝ) (s : DState) (x y : Fin D → ℤ) : ℝ :=
  Spec.lawU (dmalaFlipLaw c h g s x) (fun flip u =>
    (dmalaBinaryStep c tiny eps h f g (fun _ : Fin 1 => x) (fun _ => flip) (fun _ => u) s).1 0) y

/-- Step size of one chain run on its own, categorical. -/
noncomputable def dmalaCategTau1 {D C : ℕ} (c : DCfg) (h : ℝ → ℝ)
    (g : (Fin D → Fin C → ℝ) → Fin D → Fin C → ℝ) (s : DState) (x : Fin D → Fin C → ℝ) : Option ℝ :=
  dmalaLogTau c s (dmalaReset (I := Fin D × Fin C) fun (_ : Fin 1) i => h (deltaCateg g x i.1 i.2))

/-- Law of the drawn categories of one chain (any law when the step size is NaN: the draw is not
used; uniform here). -/
noncomputable def dmalaCategLaw {D C : ℕ} (c : DCfg) (h : ℝ → ℝ)
    (g : (Fin D → Fin C → ℝ) → Fin D → Fin C → ℝ) (s : DState) (x : Fin D → Fin C → ℝ) :
    (Fin D → Fin C) → ℝ :=
  match dmalaCategTau1 c h g s x with
  | none => categLaw fun _ _ => 0
  | some tau => categLaw fun j => dmalaCategDist tau (fun k => h (deltaCateg g x j k)) (x j)

/-- Transition probabilities of one chain of categorical DMALA. -/
noncomputable def dmalaCategKernel {D : ℕ} (c : DCfg) (tiny : ℝ) (h : ℝ → ℝ) (C : ℕ)
    (f : (Fin D → Fin C → ℝ) → ℝ) (g : (Fin D → Fin C → ℝ) → Fin D → Fin C → ℝ) (s : DState)
    (x y : Fin D → ℤ) : ℝ :=
  Spec.lawU (dmalaCategLaw c h g s (oneHotRow C x)) (fun v u =>
    (dmalaCategStep c tiny h C f g (fun _ : Fin 1 => x) (fun _ => v) (fun _ => u) s).1 0) y

end Discs
