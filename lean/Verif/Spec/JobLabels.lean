import Verif.Model.JobNames

/-!
# Specification: what a launched job is shown as (C96)
-/

namespace Discs

/-- The swept settings of the sampler. -/
def Spec.samplerArgs (kw : List Arg) : List Arg := kw.filter fun a => a.1.1 = Section.sampler

/-- The other swept settings. -/
def Spec.otherArgs (kw : List Arg) : List Arg := kw.filter fun a => a.1.1 ≠ Section.sampler

/-- The text a value is shown with: of a shape the first dimension, of a data set the part after `r-`, of a path the
last three components; slashes are dashes. -/
def Spec.shownVal : Key → Val → List Char
  | .cfg_str, .str s => s.toList.drop 2
  | _, .str s => ((gcsShort s.toList).getD []).map fun c => if c = '/' then '-' else c
  | _, .tuple l => Nat.toDigits 10 (l.headD 0)
  | _, v => v.sweep.repr

/-- The label of a sampler with these swept settings. -/
def Spec.labelOf (as : List Arg) : List Char :=
  let get (k : Key) : Option Val := as.lookup (.sampler, k)
  let num (k : Key) : List Char := ((get k).map fun v => '-' :: v.sweep.repr).getD []
  let base := match get .name with
    | some (.str "randomwalk") => "rwm".toList
    | some (.str "blockgibbs") => "bg-2".toList
    | some (.str "hammingball") => "hb-10-1".toList
    | some (.str "path_auxiliary") => "pas".toList
    | some (.str s) => s.toList
    | _ => []
  base ++ (if get .solver = some (.str "euler_forward") then ['f'] else []) ++
    (match get .adaptive with
      | some b => (if b = .bool false then "-nA".toList else []) ++ num .n ++ num .num_flips
      | none => []) ++
    match get .balancing_fn_type with
    | some (.str "SQRT") => "(s)".toList
    | some (.str "RATIO") => "(r)".toList
    | some (.str "MIN") => "(min)".toList
    | some (.str "MAX") => "(max)".toList
    | _ => []

end Discs
