import Mathlib.Data.List.Basic

/-!
# Model of the configuration merge and of the sweeps

`discs/experiment/main_sampling.py:20-57` and `discs/xm_launcher.py:47-51, 172-180`
(`get_sweeps` and its use).

A configuration has three sections of key/value pairs.  A section is a partial map (`none`: the key is
absent); nested values below a section are left out; for the type checks of `ml_collections` see `Model/TypedMerge.lean`.
-/

namespace Discs

/-- The sections of the configuration (`discs/common/configs.py:8-40`). -/
inductive Section where
  | model | sampler | experiment
  deriving DecidableEq, Repr

/-- One section: a partial map from keys to values. -/
abbrev Sec (K V : Type) := K → Option V

/-- A configuration. -/
abbrev Cfg (K V : Type) := Section → Sec K V

variable {K V : Type}

/-- `a.update(b)` for a section: the entries of `b` win. -/
def Sec.update (a b : Sec K V) : Sec K V := fun k => (b k).or (a k)

/-- `config.update(other)`: `ml_collections` merges nested dictionaries key by key. -/
def Cfg.update (a b : Cfg K V) : Cfg K V := fun s => (a s).update (b s)

/-- `config.<section>.update(sec)`. -/
def Cfg.updateSec [DecidableEq Section] (a : Cfg K V) (s : Section) (b : Sec K V) : Cfg K V := fun t =>
  if t = s then (a t).update b else a t

/-- `config.<section>.<k> = v`. -/
def Cfg.setKey [DecidableEq K] (a : Cfg K V) (s : Section) (k : K) (v : V) : Cfg K V := fun t k' =>
  if t = s ∧ k' = k then some v else a t k'

/-- The names of the keys that the merge itself uses. -/
structure ConfigKeys (K : Type) where
  name : K
  graphType : K
  bertModel : K
  cfgStr : K
  numModels : K
  saveDirName : K
  saveRoot : K

/-- `d.get(k, None)` used as a condition. -/
def getTrue (truthy : V → Bool) (s : Sec K V) (k : K) : Bool := ((s k).map truthy).getD false

/-- `get_main_config` (`main_sampling.py:27-57`).  `graphCfg name graphType cfgStr` is the result of
importing the graph configuration and calling `get_model_config`, `none` if that raises; reading a
missing key raises as well (`none`). -/
def mainConfig [DecidableEq K] (ks : ConfigKeys K) (truthy : V → Bool)
    (graphCfg : V → V → V → Option (Sec K V)) (coDefault : Sec K V) (common exp : Cfg K V)
    (samplerCfg modelCfg : Sec K V) : Option (Cfg K V) := do
  let c := if (modelCfg ks.graphType).isNone && (modelCfg ks.bertModel).isNone then common.update exp
    else common
  let c := c.updateSec .sampler samplerCfg
  let c := c.updateSec .model modelCfg
  let c ← if getTrue truthy (c .model) ks.graphType then do
      let nm ← c .model ks.name
      let gt ← c .model ks.graphType
      let cs ← c .model ks.cfgStr
      let g ← graphCfg nm gt cs
      let c := c.updateSec .model g
      let c := c.updateSec .experiment coDefault
      let c := c.update exp
      let n ← c .model ks.numModels
      some (c.setKey .experiment ks.numModels n)
    else some c
  if getTrue truthy (c .model) ks.bertModel then some (c.update exp) else some c

/-- `update_save_dir` (`main_sampling.py:20-24`): `join` prepends `'./discs/results/'`; the attribute
`config.model.name` is read in any case. -/
def updateSaveDir [DecidableEq K] (ks : ConfigKeys K) (join : V → V) (runLocal : Bool) (c : Cfg K V) :
    Option (Cfg K V) :=
  if runLocal then do
    let nm ← c .model ks.name
    return c.setKey .experiment ks.saveRoot (join ((c .model ks.saveDirName).getD nm))
  else some c

/-! ### Sweeps (`xm_launcher.py`) -/

/-- `itertools.product(*values)`: the last list varies fastest. -/
def cartesian {α : Type*} : List (List α) → List (List α)
  | [] => [[]]
  | l :: ls => l.flatMap fun a => (cartesian ls).map fun r => a :: r

/-- `get_sweeps` (`xm_launcher.py:47-51`); `zip(*cfg.items())` cannot be unpacked for an empty
dictionary (`none`).  `dict(zip(keys, v))` has the keys of the sweep, which are distinct. -/
def getSweeps (sweep : List (K × List V)) : Option (List (List (K × V))) :=
  if sweep.isEmpty then none
  else some ((cartesian (sweep.map Prod.snd)).map fun v => (sweep.map Prod.fst).zip v)

/-- The configurations of all jobs (`xm_launcher.py:172-178`): `np.hstack` of the lists; with no
sweep at all `np.hstack` raises. -/
def allSweeps (sweeps : List (List (K × List V))) : Option (List (List (K × V))) :=
  if sweeps.isEmpty then none else (sweeps.mapM getSweeps).map List.flatten

end Discs
