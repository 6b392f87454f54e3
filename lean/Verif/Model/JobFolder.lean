import Verif.Model.PlotUtils
import Verif.Model.Launcher

/-!
# Model of the folder in which a run leaves its results

`discs/xm_launcher.py:25-29, 83-97, 101-125, 150-168`, `discs/experiment/main_sampling.py:20-24` and
`discs/common/experiment_saver.py:18-38`.  Strings are lists of characters where they are cut into pieces.
-/

namespace Discs

/-! ### The folder of a launched job -/

/-- The text of a value in the folder name (`xm_launcher.py:158-160`): of a string that starts with `/gcs` the last three
components; `none` is the `IndexError` of a string with fewer. -/
def gcsShort (v : List Char) : Option (List Char) :=
  if "/gcs".toList.isPrefixOf v then
    match (v.splitOn '/').reverse with
    | a :: b :: c :: _ => some (c ++ '/' :: (b ++ '/' :: a))
    | _ => none
  else some v

/-- The same for every kind of value: only strings are cut. -/
def SweepVal.short : SweepVal → Option SweepVal
  | .str s => (gcsShort s).map .str
  | .other r => some (.other r)

/-- The swept settings as they go into the name (`xm_launcher.py:151-160`). -/
def shortArgs (kwargs : List (List Char × SweepVal)) : Option (List (List Char × SweepVal)) :=
  kwargs.mapM fun kv => kv.2.short.map fun v => (kv.1, v)

/-- The folder name of a job (`xm_launcher.py:150-168`); `workUnit` is `work_unit.work_unit_id`. -/
def jobFolder (workUnit : ℕ) (kwargs : List (List Char × SweepVal)) : Option (List Char) :=
  (shortArgs kwargs).map (folderName (Nat.toDigits 10 workUnit))

/-- `exp_name` (`xm_launcher.py:101-102`), `path` being the file of the run configuration; `none` is the `IndexError` of a
path without directory. -/
def expTitle (path : List Char) : Option (List Char) :=
  match (path.splitOn '/').reverse with
  | file :: dir :: _ => some ("discs-".toList ++ dir ++ '-' :: file.take (file.length - 3))
  | _ => none

/-- `save_dir` (`xm_launcher.py:25-29, 121-124`) with the default of `--save_folder_pattern`. -/
def saveDir (user title : List Char) (expId : ℕ) : List Char :=
  "/gcs/xcloud-shared/".toList ++ user ++ "/results/discs/".toList ++ title ++ '_' :: Nat.toDigits 10 expId

/-- `config.experiment.save_root` of a job (`xm_launcher.py:125, 164-168`); `none` if the launcher raises. -/
def jobRoot (user path : List Char) (expId workUnit : ℕ) (kwargs : List (List Char × SweepVal)) :
    Option (List Char) := do
  let title ← expTitle path
  let folder ← jobFolder workUnit kwargs
  return saveDir user title expId ++ '/' :: folder

/-! ### Results on disc -/

/-- The results on disc, by folder (`experiment_saver.py:18-38`: the names of the files in the folder are fixed, and they
are opened for writing). -/
abbrev Disk (R : Type*) := List Char → Option R

/-- A run saves its results. -/
def Disk.save {R : Type*} (d : Disk R) (run : List Char × R) : Disk R := fun p => if p = run.1 then some run.2 else d p

/-- Runs one after another. -/
def Disk.saveAll {R : Type*} (d : Disk R) (runs : List (List Char × R)) : Disk R := runs.foldl Disk.save d

/-- The folder of a run with `--run_local` (`main_sampling.py:20-24`). -/
def localRoot (c : Cfg Key Val) : Option (List Char) := do
  let c' ← updateSaveDir launchKeys (fun v => .str ("./discs/results/" ++ v.text)) true c
  match c' .experiment .save_root with
  | some (.str s) => some s.toList
  | _ => none

/-! ### Overrides on the command line of the launcher -/

/-- A place in a configuration: an entry of its own or an entry of a section. -/
inductive CfgPath
  | top (name : String)
  | leaf (s : Section) (k : Key)
  deriving DecidableEq

/-- An override of a run configuration, `--config.<path>=<value>` of the launcher (`xm_launcher.py:17-24`): `model`,
`sampler` and, where the file has it, `graph_type` are strings; `sweep` is a list, for which `config_flags` has no parser. -/
def RunConfig.override (rc : RunConfig) (p : CfgPath) (v : String) : Option RunConfig :=
  match p with
  | .top "model" => some { rc with model := v }
  | .top "sampler" => some { rc with sampler := v }
  | .top "graph_type" => rc.graphType.map fun _ => { rc with graphType := some v }
  | _ => none

/-- The same option on the command line of the job, to which the launcher passes it on (`xm_launcher.py:91-97`;
`main_sampling.py:12-14`): the configuration of an experiment has sections only, for which `config_flags` has no parser
either. -/
def Cfg.overrideAt (c : Cfg Key Val) (p : CfgPath) (v : Val) : Option (Cfg Key Val) :=
  match p with
  | .top _ => none
  | .leaf s k => ((c s).override (k, v)).map fun sec t => if t = s then sec else c t

/-- A job of a launch with such overrides: the run configuration is changed, and every override has to be accepted by the
job as well.  What it would change there is left out, since no override is accepted on both sides
(`launcher_override_refused`). -/
def launchWith (R : Repo) (rc : RunConfig) (flags : List (CfgPath × String)) (saveDir folder : String)
    (kwargs : List Arg) : Option (Cfg Key Val) := do
  let rc' ← flags.foldlM (fun r f => r.override f.1 f.2) rc
  let ef ← rc'.experimentFile R
  let _ ← flags.foldlM (fun c f => c.overrideAt f.1 (.str f.2)) ef
  launch R rc' saveDir folder kwargs

end Discs
