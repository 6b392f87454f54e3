import Verif.Model.ShippedFiles
import Verif.Model.RBM
import Verif.Model.Learning
import Verif.Model.InitSamples

/-!
# Model of the way from training to sampling

What `discs/learning/rbm/main_rbm_training.py`, `discs/learning/binary_ebm/main_binary_training.py` and
`discs/learning/binary_ebm/pt2params.py` leave in a folder, and what `discs/models/deep_ebm.py`, `discs/models/rbm.py` and
`discs/models/resnet.py` make of it when a sampling run is started with this folder as `data_path`.

`None` results stand for exceptions.  Reading and writing pickles and YAML is taken to be faithful; both files of a folder
are written by one program.  `ConfigDict.update` merges (`Sec.update`); its type checks are left out, the keys concerned
have one type everywhere.
-/

namespace Discs

/-- Keys of the section `model` of a learned model: those of the shipped files and those set for training. -/
inductive DeepKey
  | run (k : Key)
  | num_visible | num_hidden | n_channels | image_shape | data_mean
  deriving DecidableEq

/-- Values of that section; `data_mean` is a list of floats. -/
inductive DeepVal
  | run (v : Val)
  | floats (l : List ℝ)

/-- The section `model`. -/
abbrev DeepSec := Sec DeepKey DeepVal

/-- The section `model` of a sampling run before the model is built. -/
def DeepSec.ofRun (s : Sec Key Val) : DeepSec
  | .run k => (s k).map .run
  | _ => none

/-- A whole number in the section; `none` (an exception) if the key is missing. -/
def DeepSec.nat (s : DeepSec) (k : DeepKey) : Option ℕ :=
  match s k with
  | some (.run (.int z)) => some z.toNat
  | _ => none

/-- A tuple in the section. -/
def DeepSec.tuple (s : DeepSec) (k : DeepKey) : Option (List ℕ) :=
  match s k with
  | some (.run (.tuple l)) => some l
  | _ => none

/-- `config.get('data_path', None)` as a condition (`deep_ebm.py:15`). -/
def DeepSec.dataPath (s : DeepSec) : Option String :=
  match s (.run .data_path) with
  | some (.run (.str p)) => if p = "" then none else some p
  | _ => none

/-- `config.get('data_mean', None)`. -/
def DeepSec.dataMean (s : DeepSec) : Option (List ℝ) :=
  match s .data_mean with
  | some (.floats l) => some l
  | _ => none

/-- `config.<k> = v`. -/
def DeepSec.set (s : DeepSec) (k : DeepKey) (v : DeepVal) : DeepSec := fun k' => if k' = k then some v else s k'

/-! ### What training leaves -/

/-- The section `model` of `configs.get_config()` (`configs.py:9-12`). -/
def commonDeep : DeepSec := DeepSec.ofRun (Sec.ofList commonModel)

/-- The section `model` of `learning/rbm/exp_config.py:8-45`; `none` for a data set that it does not know. -/
def rbmTrainSec (dataset : String) (vocab hidden : ℕ) : Option DeepSec :=
  let s := commonDeep.set .num_hidden (.run (.int hidden))
  let s := s.set (.run .name) (.run (.str "rbm"))
  if dataset = "mnist" ∨ dataset = "fashion_mnist" then
    let s := s.set .num_visible (.run (.int 784))
    let s := s.set (.run .num_categories) (.run (.int vocab))
    let s := s.set (.run .shape) (.run (.tuple [784]))
    if hidden = 200 then some (s.set (.run .save_dir_name) (.run (.str "rbm_lowtemp")))
    else if hidden = 25 then some (s.set (.run .save_dir_name) (.run (.str "rbm_hightemp")))
    else some s
  else none

/-- The section `model` of `learning/binary_ebm/exp_config.py:8-35`: for other data sets no shape is set. -/
def ebmTrainSec (dataset : String) (channels : ℕ) : DeepSec :=
  let s := commonDeep.set (.run .name) (.run (.str "resnet"))
  let s := s.set (.run .num_categories) (.run (.int 2))
  let s := s.set .n_channels (.run (.int channels))
  if dataset ∈ ["dynamic_mnist", "static_mnist", "omniglot", "caltech"] then
    (s.set .image_shape (.run (.tuple [28, 28]))).set (.run .shape) (.run (.tuple [784]))
  else s

/-- The entry `data_mean` of `params.pkl`: a list of floats, or an array (which jax functions take). -/
inductive MeanVal
  | list (l : List ℝ)
  | array (l : List ℝ)

/-- Its entries. -/
def MeanVal.entries : MeanVal → List ℝ
  | .list l => l
  | .array l => l

/-- `results['params']` of `params.pkl`: the parameters of the network and `data_mean`. -/
structure SavedParams (Θ : Type) where
  net : Θ
  mean : MeanVal

/-- The two files of a folder. -/
structure DeepFolder (Θ : Type) where
  /-- `params.pkl` -/
  params : Option (SavedParams Θ)
  /-- The section `model` of `config.yaml`. -/
  config : Option DeepSec

/-- The end of training an RBM (`main_rbm_training.py:86-88, 103-129`): the file gets the copy of the first device. `sec`
is the section after `config.model.data_mean` was set. -/
def rbmSave {Θ : Type} {dev : ℕ} (sec : DeepSec) (mean : List ℝ) (final : Fin (dev + 1) → Θ) : DeepFolder Θ :=
  ⟨some ⟨final 0, .list mean⟩, some (sec.set .data_mean (.floats mean))⟩

/-- The end of training an image model (`main_binary_training.py:93-96, 115-120`): `unreplicate` takes the copy of the
first device. -/
def ebmSave {Θ : Type} {dev : ℕ} (sec : DeepSec) (mean : List ℝ) (final : Fin (dev + 1) → Θ) : DeepFolder Θ :=
  ⟨some ⟨final 0, .list mean⟩, some (sec.set .data_mean (.floats mean))⟩

/-- The end of converting a checkpoint (`pt2params.py:110-116`): `data_mean` is not put into the configuration. -/
def convertSave {Θ : Type} (sec : DeepSec) (mean : List ℝ) (net : Θ) : DeepFolder Θ :=
  ⟨some ⟨net, .list mean⟩, some sec⟩

/-! ### What the models make of it -/

/-- `DeepEBM.__init__` and `load_params_configs` (`deep_ebm.py:13-16, 27-43`): the section as the rest of the program sees it
and `config.params`. -/
def deepLoad {Θ : Type} (fs : String → DeepFolder Θ) (sec : DeepSec) :
    Option (DeepSec × Option (SavedParams Θ)) :=
  match sec.dataPath with
  | none => some (sec, none)
  | some p => do
    let saved ← (fs p).params
    let conf ← (fs p).config
    return (sec.update conf, some saved)

/-- The attributes of a learned model that decide what it computes. -/
structure DeepModel (Θ : Type) where
  /-- `config.model` after the model was built; sampler and experiment read it. -/
  sec : DeepSec
  numCategories : ℕ
  shape : List ℕ
  /-- Sizes of the network: visible and hidden units, or channels and the shape of the image. -/
  sizes : List ℕ
  /-- `self.params`. -/
  params : Option Θ
  /-- `self.data_mean`. -/
  mean : Option (List ℝ)
  /-- Probabilities of `self.init_dist`; `none`: all one half. -/
  initProb : Option (List ℝ)

/-- `BinaryRBM.__init__` (`rbm.py:108-121, 165-179`): the mean comes from the loaded parameters only. -/
def binaryRbm {Θ : Type} (fs : String → DeepFolder Θ) (sec : DeepSec) : Option (DeepModel Θ) := do
  let (sec, saved) ← deepLoad fs sec
  let v ← sec.nat .num_visible
  let h ← sec.nat .num_hidden
  let c ← sec.nat (.run .num_categories)
  let mean := saved.map fun s => s.mean.entries
  let sh ← sec.tuple (.run .shape)
  return ⟨sec, c, sh, [v, h], saved.map (·.net), mean, mean⟩

/-- `CategoricalRBM.__init__` (`rbm.py:108-121, 185-203`): without a mean `jnp.ones` gets a wrong data type, and `jnp.log`
refuses a list. -/
def categRbm {Θ : Type} (fs : String → DeepFolder Θ) (sec : DeepSec) : Option (DeepModel Θ) := do
  let (sec, saved) ← deepLoad fs sec
  let v ← sec.nat .num_visible
  let h ← sec.nat .num_hidden
  let c ← sec.nat (.run .num_categories)
  let s ← saved
  match s.mean with
  | .list _ => none
  | .array l =>
    let sh ← sec.tuple (.run .shape)
    return ⟨sec, c, sh, [v, h], some s.net, some l, some l⟩

/-- `rbm.build_model` (`rbm.py:206-212`): the class is chosen before the folder is read. -/
def buildRbm {Θ : Type} (fs : String → DeepFolder Θ) (sec : DeepSec) : Option (DeepModel Θ) := do
  let c ← sec.nat (.run .num_categories)
  if c = 2 then binaryRbm fs sec else if 2 < c then categRbm fs sec else none

/-- `resnet.build_model` (`resnet.py:84-97, 139-160`); for more than two categories it returns `None`, which the next step of
the program cannot use. -/
def buildEbm {Θ : Type} (fs : String → DeepFolder Θ) (sec : DeepSec) : Option (DeepModel Θ) := do
  let c₀ ← sec.nat (.run .num_categories)
  if c₀ ≠ 2 then none
  else
    let (sec, saved) ← deepLoad fs sec
    let c ← sec.nat (.run .num_categories)
    let mean := match saved with
      | none => sec.dataMean
      | some s => some s.mean.entries
    let sh ← sec.tuple (.run .shape)
    let n ← sec.nat .n_channels
    let im ← sec.tuple .image_shape
    return ⟨sec, c, sh, n :: im, saved.map (·.net), mean, mean⟩

/-- The arrays of `NNBinary`. -/
structure RbmArrays where
  V : ℕ
  H : ℕ
  p : RBMParams V H

/-- `RBM.forward` of a `BinaryRBM` (`rbm.py:135-138`) on one sample: flax compares the shapes of the arrays with those of the
network; with another number of categories the sample is encoded and does not fit the matrix. -/
noncomputable def DeepModel.rbmForward {Θ : Type} (m : DeepModel Θ) (a : RbmArrays) (x : List ℝ) : Option ℝ :=
  if m.numCategories ≠ 2 then none
  else if h : m.sizes = [a.V, a.H] ∧ x.length = a.V then
    some (Discs.rbmForward a.p fun i => x[i.val]'(by rw [h.2]; exact i.isLt))
  else none

/-- `ImageEBM.forward` (`resnet.py:111-123`) without a temperature; `net` is the network of the given sizes, `x` a binary
image. -/
noncomputable def DeepModel.ebmForward {Θ : Type} (m : DeepModel Θ) (eps : ℝ)
    (net : List ℕ → Θ → List ℝ → ℝ) (θ : Θ) (x : List ℝ) : ℝ :=
  match m.mean with
  | none => net m.sizes θ x
  | some μ => net m.sizes θ x +
      ((x.zip μ).map fun p => p.1 * Real.log (p.2 + eps) + (1 - p.1) * Real.log (1 + (-p.2 + eps))).sum

/-- Law of one row of `get_init_samples` (`rbm.py:123-126`, `resnet.py:99-102`) of a model with `D` sites. -/
noncomputable def DeepModel.initLaw {Θ : Type} (m : DeepModel Θ) (D : ℕ) : (Fin D → ℤ) → ℝ :=
  initDataMean (m.initProb.map fun l i => l.getD i.val 0)

end Discs
