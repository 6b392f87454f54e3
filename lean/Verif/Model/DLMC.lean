import Verif.Model.DMALA

/-!
# Model of `discs/samplers/dlmc.py`
-/

namespace Discs

open Finset

/-- `dlmc.py:43-48` `reset_stats`: `logsumexp` over the whole batch minus `log(batch size)`. -/
noncomputable def dlmcReset {B : ℕ} {I : Type*} [Fintype I] (c : DCfg) (w : Fin B → I → ℝ) : DStats :=
  let logZ := logsumexp (fun i : Fin B × I => w i.1 i.2) - Real.log B
  ⟨Real.log c.n - logZ, logZ⟩

/-- `dlmc.py:83-97`: the step size used in the forward proposal. -/
noncomputable def dlmcLogTau (c : DCfg) (s : DState) (loc : DStats) : Option ℝ :=
  if c.adaptive then
    if c.coOpt then some loc.logTau
    else if s.steps = 0 then some loc.logTau else s.logTau
  else if s.steps = 0 then some loc.logTau else s.logTau

/-- `dlmc.py:91-96`: in the non-adaptive case the step size computed at step 0 is written into the
state. -/
noncomputable def dlmcPreState (c : DCfg) (s : DState) (loc : DStats) : DState :=
  if c.adaptive then s else { s with logTau := dlmcLogTau c s loc }

/-- `dlmc.py:117-132` `BinaryDLMC.get_dist_at`, one entry: the flip probability. -/
noncomputable def dlmcFlipProb (solver : String) (logTau w delta : ℝ) : Except String ℝ :=
  let logNu := logSigmoid delta
  if solver = "interpolate" then
    .ok (expE (min ((logNu : WithBot ℝ) + log1mexp ((-Real.exp (logTau + w - logNu) : ℝ) : WithBot ℝ))
      (logNu : WithBot ℝ)))
  else if solver = "euler_forward" then .ok (Real.exp (clipMax (logTau + w) logNu))
  else .error ("Unknown solver for DLMC: " ++ solver)

/-- `dlmc.py:76-114` `step` of `BinaryDLMC`; an unknown solver raises.  `flip` are the Bernoulli draws.
NaN step size: as in DMALA. -/
noncomputable def dlmcBinaryStep {B D : ℕ} (c : DCfg) (tiny eps : ℝ) (h : ℝ → ℝ)
    (f : (Fin D → ℤ) → ℝ) (g : (Fin D → ℤ) → Fin D → ℝ) (x : Fin B → Fin D → ℤ)
    (flip : Fin B → Fin D → Bool) (u : Fin B → ℝ) (s : DState) :
    Except String ((Fin B → Fin D → ℤ) × DState × Option ℝ) :=
  let dx := fun b j => deltaBinary g (x b) j
  let wx := fun b j => h (dx b j)
  let locX := dlmcReset c wx
  let s' := dlmcPreState c s locX
  let prob := fun tau (dl : Fin D → ℝ) j => dlmcFlipProb c.solver tau (h (dl j)) (dl j)
  if c.solver ≠ "interpolate" ∧ c.solver ≠ "euler_forward" then
    .error ("Unknown solver for DLMC: " ++ c.solver)
  else match dlmcLogTau c s locX with
  | none => .ok (x, dSelectState c s' none locX, none)
  | some tau =>
    let distX := fun b j => (prob tau (dx b) j).toOption.getD 0
    let y := fun b => flipSites (x b) (flip b)
    let llX2y := fun b => flipLl eps (distX b) (flip b)
    let dy := fun b j => deltaBinary g (y b) j
    let wy := fun b j => h (dy b j)
    let tauY := dmalaLogTauRev c tau (dlmcReset c wy)
    let distY := fun b j => (prob tauY (dy b) j).toOption.getD 0
    let llY2x := fun b => flipLl eps (distY b) (flip b)
    let logAcc := fun b => f (y b) + llY2x b - f (x b) - llX2y b
    .ok ((mhStep tiny u logAcc x y).1, dSelectState c s' (some (dAcc logAcc)) locX,
      some (meanB fun b => clipMax (Real.exp (logAcc b)) 1))

/-- `dlmc.py:149-172` `CategoricalDLMC.get_dist_at`, one site: unnormalised logits.
`log1mexp` is finite because its argument is not zero (`WithBot.unbotD` is never used on `⊥`, see
`dlmcLog1mexp_coe`). -/
noncomputable def dlmcCategDist {C : ℕ} (solver : String) (logTau : ℝ) (w delta x : Fin C → ℝ) :
    Except String (Fin C → ℝ) :=
  let logNu := logSoftmax delta
  let finish := fun (post : Fin C → ℝ) (k : Fin C) =>
    post k * (1 - x k) + x k * clipMin
      (Real.log (1 + -(clipMax (∑ k', Real.exp (post k') * (1 - x k')) (1 - 1e-12)))) (logNu k)
  if solver = "interpolate" then
    .ok (finish fun k => logNu k +
      (log1mexp ((-Real.exp (logTau + w k - logNu k) : ℝ) : WithBot ℝ)).unbotD 0)
  else if solver = "euler_forward" then .ok (finish fun k => logTau + w k)
  else .error ("Unknown solver for DLMC: " ++ solver)

/-- `dlmc.py:76-114` `step` of `CategoricalDLMC`. -/
noncomputable def dlmcCategStep {B D : ℕ} (c : DCfg) (tiny : ℝ) (h : ℝ → ℝ) (C : ℕ)
    (f : (Fin D → Fin C → ℝ) → ℝ) (g : (Fin D → Fin C → ℝ) → Fin D → Fin C → ℝ)
    (xi : Fin B → Fin D → ℤ) (v : Fin B → Fin D → Fin C) (u : Fin B → ℝ) (s : DState) :
    Except String ((Fin B → Fin D → ℤ) × DState × Option ℝ) :=
  let x := fun b => oneHotRow C (xi b)
  let dx := fun b => deltaCateg g (x b)
  let wx := fun b j k => h (dx b j k)
  let locX := dlmcReset c (I := Fin D × Fin C) fun b i => wx b i.1 i.2
  let s' := dlmcPreState c s locX
  let dist := fun tau (xr dl : Fin D → Fin C → ℝ) j =>
    (dlmcCategDist c.solver tau (fun k => h (dl j k)) (dl j) (xr j)).toOption.getD 0
  if c.solver ≠ "interpolate" ∧ c.solver ≠ "euler_forward" then
    .error ("Unknown solver for DLMC: " ++ c.solver)
  else match dlmcLogTau c s locX with
  | none => .ok (fun b => argmaxRow (x b), dSelectState c s' none locX, none)
  | some tau =>
    let distX := fun b => dist tau (x b) (dx b)
    let y := fun b => oneHotRow C (categRow (v b))
    let llX2y := fun b => categLl (distX b) (y b)
    let dy := fun b => deltaCateg g (y b)
    let tauY := dmalaLogTauRev c tau
      (dlmcReset c (I := Fin D × Fin C) fun b i => h (dy b i.1 i.2))
    let distY := fun b => dist tauY (y b) (dy b)
    let aux := fun b => if C > 2 then x b else y b
    let llY2x := fun b => categLl (distY b) (aux b)
    let logAcc := fun b => f (y b) + llY2x b - f (x b) - llX2y b
    .ok (fun b => argmaxRow ((mhStep tiny u logAcc x y).1 b),
      dSelectState c s' (some (dAcc logAcc)) locX,
      some (meanB fun b => clipMax (Real.exp (logAcc b)) 1))

/-- Step size of one chain run on its own (`B = 1`), binary. -/
noncomputable def dlmcTau1 {D : ℕ} (c : DCfg) (h : ℝ → ℝ) (g : (Fin D → ℤ) → Fin D → ℝ) (s : DState)
    (x : Fin D → ℤ) : Option ℝ :=
  dlmcLogTau c s (dlmcReset c fun (_ : Fin 1) j => h (deltaBinary g x j))

/-- Law of the flips of one chain. -/
noncomputable def dlmcFlipLaw {D : ℕ} (c : DCfg) (h : ℝ → ℝ) (g : (Fin D → ℤ) → Fin D → ℝ)
    (s : DState) (x : Fin D → ℤ) : (Fin D → Bool) → ℝ :=
  match dlmcTau1 c h g s x with
  | none => fun flip => if flip = fun _ => false then 1 else 0
  | some tau => flipLaw fun j =>
      (dlmcFlipProb c.solver tau (h (deltaBinary g x j)) (deltaBinary g x j)).toOption.getD 0

/-- Transition probabilities of one chain of binary DLMC (of the runs that do not raise). -/
noncomputable def dlmcBinaryKernel {D : ℕ} (c : DCfg) (tiny eps : ℝ) (h : ℝ → ℝ)
    (f : (Fin D → ℤ) → ℝ) (g : (Fin D → ℤ) → Fin D → ℝ) (s : DState) (x y : Fin D → ℤ) : ℝ :=
  Spec.lawU (dlmcFlipLaw c h g s x) (fun flip u =>
    (((dlmcBinaryStep c tiny eps h f g (fun _ : Fin 1 => x) (fun _ => flip) (fun _ => u) s).toOption).map
      fun r => r.1 0)) (some y)

/-- Step size of one chain run on its own, categorical. -/
noncomputable def dlmcCategTau1 {D C : ℕ} (c : DCfg) (h : ℝ → ℝ)
    (g : (Fin D → Fin C → ℝ) → Fin D → Fin C → ℝ) (s : DState) (x : Fin D → Fin C → ℝ) : Option ℝ :=
  dlmcLogTau c s (dlmcReset c (I := Fin D × Fin C) fun (_ : Fin 1) i => h (deltaCateg g x i.1 i.2))

/-- Law of the drawn categories of one chain. -/
noncomputable def dlmcCategLaw {D C : ℕ} (c : DCfg) (h : ℝ → ℝ)
    (g : (Fin D → Fin C → ℝ) → Fin D → Fin C → ℝ) (s : DState) (x : Fin D → Fin C → ℝ) :
    (Fin D → Fin C) → ℝ :=
  match dlmcCategTau1 c h g s x with
  | none => categLaw fun _ _ => 0
  | some tau => categLaw fun j =>
      (dlmcCategDist c.solver tau (fun k => h (deltaCateg g x j k)) (deltaCateg g x j)
        (x j)).toOption.getD 0

/-- Transition probabilities of one chain of categorical DLMC. -/
noncomputable def dlmcCategKernel {D : ℕ} (c : DCfg) (tiny : ℝ) (h : ℝ → ℝ) (C : ℕ)
    (f : (Fin D → Fin C → ℝ) → ℝ) (g : (Fin D → Fin C → ℝ) → Fin D → Fin C → ℝ) (s : DState)
    (x y : Fin D → ℤ) : ℝ :=
  Spec.lawU (dlmcCategLaw c h g s (oneHotRow C x)) (fun v u =>
    (((dlmcCategStep c tiny h C f g (fun _ : Fin 1 => x) (fun _ => v) (fun _ => u) s).toOption).map
      fun r => r.1 0)) (some y)

end Discs
