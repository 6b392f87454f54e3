import Verif.Model.Gibbs
import Verif.Model.BlockGibbs
import Verif.Model.HammingBall
import Verif.Model.RandomWalk
import Verif.Model.LBStep
import Verif.Model.GWG
import Verif.Model.PathAux
import Verif.Model.DMALA
import Verif.Model.DLMC

/-!
# Model of the construction of a sampler from the configuration

`discs/experiment/main_sampling.py:70-73` imports `discs.samplers.<config.sampler.name>` and calls its
`build_sampler(config)`; the constructors read the fields they need.  A field is `none` if the key is
absent; `config.a.b` of an absent key raises, `config.a.get('b', d)` gives `d`.  The values have the types of
the shipped configurations.  `RBMBlockGibbsSampler` (`blockgibbs.py:74-85`) is never returned by a
`build_sampler`.
-/

namespace Discs

/-- The fields of the merged configuration that `build_sampler` and the constructors read:
`config.model.shape`, `config.model.num_categories`, `config.experiment.co_opt_prob` and the keys of
`config.sampler` (`discs/samplers/configs/*.py`). -/
structure RunCfg where
  shape : Option (List ℕ) := none
  numCategories : Option ℕ := none
  coOpt : Option Bool := none
  name : String := ""
  adaptive : Option Bool := none
  target : Option ℚ := none
  balancing : Option String := none
  numFlips : Option ℕ := none
  blockSize : Option ℕ := none
  stepSize : Option ℚ := none
  scheduleStep : Option ℤ := none
  resetZ : Option ℤ := none
  n : Option ℚ := none
  solver : Option String := none
  useFastPath : Option Bool := none
  approxWithGrad : Option Bool := none

/-- What can go wrong while the sampler is built. -/
inductive BuildErr
  /-- `importlib.import_module` fails -/
  | noModule
  /-- a key is read that the configuration does not have -/
  | missing (key : String)
  | notImplemented
  | value
  deriving DecidableEq, Repr

/-- The attributes of `DMALASampler` (`dmala.py:68-76`) and `DLMCSampler` (`dlmc.py:59-68`); `none` for an
attribute that is not set because the sampler is not adaptive. -/
structure DAttrs where
  adaptive : Bool
  coOpt : Bool
  stepSize : ℚ
  target : Option ℚ
  scheduleStep : Option ℤ
  resetZ : Option ℤ
  n : ℚ
  solver : String
  deriving DecidableEq, Repr

/-- The attributes as read by the steps; what is not set is not read. -/
noncomputable def DAttrs.toCfg (a : DAttrs) : DCfg where
  adaptive := a.adaptive
  coOpt := a.coOpt
  stepSize := a.stepSize
  target := ((a.target.getD 0 : ℚ) : ℝ)
  scheduleStep := a.scheduleStep.getD 0
  resetZ := a.resetZ.getD 0
  n := a.n
  solver := a.solver

/-- The sampler classes with the attributes set by their constructors. -/
inductive SamplerClass
  | gibbs
  | blockGibbs (b : ℕ)
  | hammingBall (b m : ℕ)
  | randomWalk (adaptive : Bool) (target : ℚ)
  | locallyBalanced (fn : String)
  | gwgBinary (fn : String) (k : ℕ)
  | gwgAdaptive (fn : String) (target : ℚ)
  | gwgCateg (fn : String)
  /-- `target` is set for the adaptive variant only -/
  | pathAux (fn : String) (target : Option ℚ) (k : ℕ) (approx : Bool)
  | dmala (fn : String) (a : DAttrs)
  | dlmc (fn : String) (a : DAttrs)
  deriving DecidableEq, Repr

/-- A sampler object: `sample_shape`, `num_categories`, and the rest. -/
structure Built where
  shape : List ℕ
  cats : ℕ
  cls : SamplerClass
  deriving DecidableEq, Repr

/-- `config.a.key`. -/
def need {α : Type} (key : String) : Option α → Except BuildErr α
  | some a => .ok a
  | none => .error (.missing key)

/-- `gibbs.py:14-16, 61-62`. -/
def buildGibbs (c : RunCfg) : Except BuildErr Built := do
  let shape ← need "shape" c.shape
  let C ← need "num_categories" c.numCategories
  return ⟨shape, C, .gibbs⟩

/-- `blockgibbs.py:15-24, 88-89`. -/
def buildBlockGibbs (c : RunCfg) : Except BuildErr Built := do
  let shape ← need "shape" c.shape
  let C ← need "num_categories" c.numCategories
  let b ← need "block_size" c.blockSize
  return ⟨shape, C, .blockGibbs b⟩

/-- `hammingball.py:16-33, 126-127`. -/
def buildHammingBall (c : RunCfg) : Except BuildErr Built := do
  let shape ← need "shape" c.shape
  let C ← need "num_categories" c.numCategories
  let b ← need "block_size" c.blockSize
  match samplesPerHamming C b with
  | .ok m => return ⟨shape, C, .hammingBall b m⟩
  | .error _ => .error .value

/-- `randomwalk.py:14-18, 77-81`: the class is chosen with `get('adaptive', False)`, the constructor then
reads `adaptive` and `target_acceptance_rate` in any case. -/
def buildRandomWalk (c : RunCfg) : Except BuildErr Built := do
  let cls := c.adaptive.getD false
  let _ ← need "adaptive" c.adaptive
  let target ← need "target_acceptance_rate" c.target
  let shape ← need "shape" c.shape
  let C ← need "num_categories" c.numCategories
  return ⟨shape, C, .randomWalk cls target⟩

/-- `locallybalanced.py:22-26`, the constructor of the parent class of all gradient samplers. -/
def buildLB (c : RunCfg) : Except BuildErr (List ℕ × ℕ × String) := do
  let shape ← need "shape" c.shape
  let C ← need "num_categories" c.numCategories
  let fn ← need "balancing_fn_type" c.balancing
  return (shape, C, fn)

/-- `locallybalanced.py:80-81`. -/
def buildLocallyBalanced (c : RunCfg) : Except BuildErr Built := do
  let (shape, C, fn) ← buildLB c
  return ⟨shape, C, .locallyBalanced fn⟩

/-- `gwg.py:45-47, 83-85, 173-180`. -/
def buildGWG (c : RunCfg) : Except BuildErr Built := do
  let C ← need "num_categories" c.numCategories
  match gwgBuild C c.adaptive with
  | .adaptive => do
    let (shape, C, fn) ← buildLB c
    let target ← need "target_acceptance_rate" c.target
    return ⟨shape, C, .gwgAdaptive fn target⟩
  | .binary => do
    let (shape, C, fn) ← buildLB c
    return ⟨shape, C, .gwgBinary fn (c.numFlips.getD 1)⟩
  | .categorical => do
    let (shape, C, fn) ← buildLB c
    return ⟨shape, C, .gwgCateg fn⟩

/-- `path_auxiliary.py:46-52, 175-179`. -/
def buildPathAux (c : RunCfg) : Except BuildErr Built := do
  let fast ← need "use_fast_path" c.useFastPath
  match pafsBuild fast with
  | .error _ => .error .notImplemented
  | .ok _ => do
    let (shape, C, fn) ← buildLB c
    let target ← if c.adaptive.getD false then (need "target_acceptance_rate" c.target).map some else .ok none
    return ⟨shape, C, .pathAux fn target (c.numFlips.getD 1) (c.approxWithGrad.getD true)⟩

/-- `dmala.py:68-76, 163-167`; the two classes differ in the methods only. -/
def buildDMALA (c : RunCfg) : Except BuildErr Built := do
  let _ ← need "num_categories" c.numCategories
  let (shape, C, fn) ← buildLB c
  let adaptive ← need "adaptive" c.adaptive
  let coOpt ← need "co_opt_prob" c.coOpt
  let stepSize := c.stepSize.getD (3 / 10)
  if adaptive then do
    let target ← need "target_acceptance_rate" c.target
    return ⟨shape, C, .dmala fn ⟨true, coOpt, stepSize, some target, some (c.scheduleStep.getD 100),
      some (c.resetZ.getD 20), 3, ""⟩⟩
  else return ⟨shape, C, .dmala fn ⟨false, coOpt, stepSize, none, none, none, 3, ""⟩⟩

/-- `dlmc.py:59-68, 185-189`. -/
def buildDLMC (c : RunCfg) : Except BuildErr Built := do
  let _ ← need "num_categories" c.numCategories
  let (shape, C, fn) ← buildLB c
  let adaptive ← need "adaptive" c.adaptive
  let coOpt ← need "co_opt_prob" c.coOpt
  let n := c.n.getD 3
  if adaptive then do
    let target ← need "target_acceptance_rate" c.target
    let sch ← need "schedule_step" c.scheduleStep
    return ⟨shape, C, .dlmc fn ⟨true, coOpt, 0, some target, some sch, some (c.resetZ.getD (-1)), n,
      c.solver.getD "interpolate"⟩⟩
  else return ⟨shape, C, .dlmc fn ⟨false, coOpt, 0, none, none, some (c.resetZ.getD (-1)), n,
    c.solver.getD "interpolate"⟩⟩

/-- `main_sampling.py:70-73`: the module named by the configuration and its `build_sampler`. -/
def buildSampler (c : RunCfg) : Except BuildErr Built :=
  if c.name = "gibbs" then buildGibbs c
  else if c.name = "blockgibbs" then buildBlockGibbs c
  else if c.name = "hammingball" then buildHammingBall c
  else if c.name = "randomwalk" then buildRandomWalk c
  else if c.name = "locallybalanced" then buildLocallyBalanced c
  else if c.name = "gwg" then buildGWG c
  else if c.name = "path_auxiliary" then buildPathAux c
  else if c.name = "dmala" then buildDMALA c
  else if c.name = "dlmc" then buildDLMC c
  else .error .noModule

/-! ### The shipped sampler configurations (`discs/samplers/configs/*.py`) -/

/-- The sampler sections, in the order of the files; shape, number of categories and `co_opt_prob` come from
the model configuration and `discs/common/configs.py:36`. -/
def shippedSampler (shape : List ℕ) (C : ℕ) (co : Bool) : List RunCfg :=
  let m : RunCfg := { shape := some shape, numCategories := some C, coOpt := some co }
  [{ m with name := "blockgibbs", blockSize := some 2 },
   { m with name := "dlmc", adaptive := some true, target := some (574 / 1000), balancing := some "SQRT",
            scheduleStep := some 200, resetZ := some 20, solver := some "interpolate", n := some 3 },
   { m with name := "dmala", adaptive := some true, target := some (574 / 1000), balancing := some "SQRT",
            scheduleStep := some 100, resetZ := some 20, stepSize := some (2 / 10) },
   { m with name := "gibbs" },
   { m with name := "gwg", numFlips := some 1, adaptive := some true, target := some (574 / 1000),
            balancing := some "SQRT" },
   { m with name := "hammingball", blockSize := some 10 },
   { m with name := "locallybalanced", balancing := some "SQRT" },
   { m with name := "path_auxiliary", useFastPath := some true, numFlips := some 1, adaptive := some true,
            target := some (574 / 1000), balancing := some "SQRT", approxWithGrad := some true },
   { m with name := "randomwalk", adaptive := some true, target := some (237 / 1000) }]

/-! ### The transition probabilities of a built sampler -/

/-- What the samplers use of a model, for samples of `D` sites and `C` categories, and the mask passed by the
experiment.  The state of a chain is an int32 array; `forward` may depend on the number type of its argument
(`ising.py:51`), so there are two energies for integer samples. -/
structure ModelIface (D C : ℕ) where
  /-- `forward` on the int32 array -/
  f : (Fin D → ℤ) → ℝ
  /-- the value of `get_value_and_grad`: `forward` on the float32 copy -/
  val : (Fin D → ℤ) → ℝ
  /-- the gradient of `get_value_and_grad` -/
  grad : (Fin D → ℤ) → Fin D → ℝ
  /-- value and log-ratios of `logratio_in_neighborhood`; `none` if there is no such method or it does not
  return four values -/
  nb : Option ((Fin D → ℤ) → ℝ × (Fin D → ℝ))
  /-- `get_value_and_grad` on a one-hot float array -/
  valHot : (Fin D → Fin C → ℝ) → ℝ
  gradHot : (Fin D → Fin C → ℝ) → Fin D → Fin C → ℝ
  /-- `logratio_in_neighborhood` on a one-hot array -/
  nbHot : Option ((Fin D → Fin C → ℝ) → ℝ × (Fin D → Fin C → ℝ))
  mask : Option (Fin D → ℝ)

/-- The states of the samplers. -/
inductive SamplerState
  | gibbs (s : GibbsState)
  | block (s : BlockState)
  | walk (s : RWState)
  | lb (s : LBState)
  | d (s : DState)

/-- `apply_weight_function_logscale` of a sampler with this `balancing_fn_type`; `none` if it raises. -/
noncomputable def weightOf (fn : String) : Option (ℝ → ℝ) :=
  match applyWeightLog fn 0 with
  | .ok _ => some fun t => ((applyWeightLog fn t).toOption).getD 0
  | .error _ => none

/-- Energy and local log-ratios of `path_auxiliary.py:70-81` for two categories. -/
noncomputable def ModelIface.pafsLocal {D C : ℕ} (M : ModelIface D C) (approx : Bool) :
    Option (((Fin D → ℤ) → ℝ) × ((Fin D → ℤ) → Fin D → ℝ)) :=
  if approx then some (M.val, fun x => deltaBinary M.grad x)
  else M.nb.map fun g => (fun x => (g x).1, fun x => (g x).2)

/-- The same for one-hot samples. -/
noncomputable def ModelIface.pafsLocalHot {D C : ℕ} (M : ModelIface D C) (approx : Bool) :
    Option (((Fin D → Fin C → ℝ) → ℝ) × ((Fin D → Fin C → ℝ) → Fin D → Fin C → ℝ)) :=
  if approx then some (M.valHot, fun x => deltaCateg M.gradHot x)
  else M.nbHot.map fun g => (fun x => (g x).1, fun x => (g x).2)

/-- Number of sites: `math.prod(sample_shape)`. -/
def Built.dim (b : Built) : ℕ := b.shape.prod

/-- Transition probabilities of one chain of a sampler in a state; `none` if the step raises: for an
unknown balancing function or solver, for more flips than sites (`top_k`), for exact log-ratios that the model
does not have, for the plain locally balanced sampler (its step returns a pair, `lbDriverStep`), and for a
state of another sampler. -/
noncomputable def SamplerClass.kernel (cls : SamplerClass) {D C : ℕ} (M : ModelIface D C) (st : SamplerState) :
    Option ((Fin D → ℤ) → (Fin D → ℤ) → ℝ) :=
  match cls, st with
  | .gibbs, .gibbs s => some (gibbsKernel M.f C s)
  | .blockGibbs k, .block s => some (blockGibbsKernel M.f C k s)
  | .hammingBall k m, .block s => some (hbKernel M.f C k m s)
  | .randomWalk a t, .walk s => some (rwKernel a t mhTiny M.f C s)
  | .gwgBinary fn k, .lb s => (weightOf fn).map fun h => gwgBinaryKernel k mhTiny h M.val M.grad M.mask s
  | .gwgAdaptive fn t, .lb s =>
    if hD : 0 < D then
      (weightOf fn).map fun h => gwgAdaptiveKernel hD t mhTiny h M.val M.grad M.mask s
    else none
  | .gwgCateg fn, .lb s => (weightOf fn).map fun h => cgwgKernel mhTiny h C M.valHot M.gradHot s
  | .pathAux fn target k approx, .lb s =>
    (weightOf fn).bind fun h =>
      if C = 2 then
        (M.pafsLocal approx).bind fun l =>
          match target with
          | some t => some (pafsAdaptiveKernel t mhTiny h l.1 l.2 M.mask s)
          | none => if D < k then none else some (pafsBinaryKernel k mhTiny h l.1 l.2 M.mask s)
      else
        (M.pafsLocalHot approx).bind fun l =>
          match target with
          | some t => some (pafsCategAdaptiveKernel t mhTiny h C l.1 l.2 M.mask s)
          | none => if D < k then none else some (pafsCategKernel k mhTiny h C l.1 l.2 M.mask s)
  | .dmala fn a, .d s =>
    (weightOf fn).map fun h =>
      if C = 2 then dmalaBinaryKernel a.toCfg mhTiny llEps h M.val M.grad s
      else dmalaCategKernel a.toCfg mhTiny h C M.valHot M.gradHot s
  | .dlmc fn a, .d s =>
    if a.solver = "interpolate" ∨ a.solver = "euler_forward" then
      (weightOf fn).map fun h =>
        if C = 2 then dlmcBinaryKernel a.toCfg mhTiny llEps h M.val M.grad s
        else dlmcCategKernel a.toCfg mhTiny h C M.valHot M.gradHot s
    else none
  | _, _ => none

end Discs
