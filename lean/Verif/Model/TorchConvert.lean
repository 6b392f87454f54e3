import Verif.Model.PlotUtils

/-!
# Model of `discs/learning/binary_ebm/pt2params.py`

Conversion of a PyTorch checkpoint of the image model to the parameters of `resnet.ResnetBinary`.
Strings are lists of characters, dictionaries association lists, a failing assertion or unpacking is `none`.
Loading and writing of files is left out.
-/

namespace Discs

/-- An array: its shape and its entries by index. -/
structure Tensor (R : Type) where
  shape : List ℕ
  val : List ℕ → R

/-- A key of the flattened Flax parameters (`pt2params.py:34`), a tuple of names. -/
abbrev ParamKey := List (List Char)

/-- `'kernel' if p == 'weight' else 'bias'` after the assertion on `p` (`pt2params.py:51-54, 57-63`). -/
def leafName (p : List Char) : Option (List Char) :=
  if p = "weight".toList then some "kernel".toList
  else if p = "bias".toList then some "bias".toList else none

/-- `'Conv_%d' % (int(mod[-1]) - 1)` (`pt2params.py:50`); `none` if the last character is missing or no
digit. -/
def convName (mod : List Char) : Option (List Char) :=
  match mod.getLast? with
  | none => none
  | some c => if c.isDigit then some ("Conv_".toList ++ (toString ((c.toNat : ℤ) - 48 - 1)).toList) else none

/-- `param_mod` (`pt2params.py:47-50`). -/
def paramMod (mod : List Char) : Option (List Char) :=
  if mod = "shortcut_conv".toList then some mod else convName mod

/-- The name of the Flax parameter for a PyTorch name other than `mean` (`pt2params.py:43-63`). -/
def torchTarget (key : List Char) : Option ParamKey :=
  if !("net.".toList).isPrefixOf key then none
  else
    let key := key.drop 4
    if ("net.".toList).isPrefixOf key then
      match key.splitOn '.' with
      | [_, layer, mod, p] => do
        let m ← paramMod mod
        let l ← leafName p
        some ["BasicBlock_".toList ++ layer, m, l]
      | _ => none
    else
      match key.splitOn '.' with
      | [mod, p] => do
        let l ← leafName p
        if mod = "proj".toList then some ["Conv_0".toList, l]
        else if mod = "energy_linear".toList then some ["Dense_0".toList, l]
        else none
      | _ => none

/-- `np.transpose(val, (2, 3, 1, 0))`: entry `[a, b, c, d]` of the result is entry `[d, c, a, b]`. -/
def transpose4 {R : Type} (t : Tensor R) : Tensor R where
  shape := [t.shape.getD 2 0, t.shape.getD 3 0, t.shape.getD 1 0, t.shape.getD 0 0]
  val := fun i => t.val [i.getD 3 0, i.getD 2 0, i.getD 0 0, i.getD 1 0]

/-- `jnp.transpose(val, (1, 0))`. -/
def transpose2 {R : Type} (t : Tensor R) : Tensor R where
  shape := [t.shape.getD 1 0, t.shape.getD 0 0]
  val := fun i => t.val [i.getD 1 0, i.getD 0 0]

/-- The value stored for a parameter (`pt2params.py:65-70`). -/
def toFlax {R : Type} (key : ParamKey) (t : Tensor R) : Option (Tensor R) :=
  if key.getLast? = some "kernel".toList then
    if t.shape.length = 4 then some (transpose4 t)
    else if t.shape.length = 2 then some (transpose2 t) else none
  else some t

/-- One pass of the loop (`pt2params.py:38-73`). -/
def convertStep {R : Type} (st : List (ParamKey × Tensor R) × Option (Tensor R)) (kv : List Char × Tensor R) :
    Option (List (ParamKey × Tensor R) × Option (Tensor R)) :=
  if kv.1 = "mean".toList then some (st.1, some kv.2)
  else do
    let key ← torchTarget kv.1
    let old ← dictGet st.1 key
    let v ← toFlax key kv.2
    if old.shape = v.shape then some (dictSet st.1 key v, st.2) else none

/-- The conversion (`pt2params.py:31-76`): `params` are the freshly initialised parameters, `th` the
checkpoint.  Returns the parameters and `data_mean`. -/
def convertTorch {R : Type} (params : List (ParamKey × Tensor R)) (th : List (List Char × Tensor R)) :
    Option (List (ParamKey × Tensor R) × Option (Tensor R)) :=
  if params.length + 1 = th.length then th.foldlM convertStep (params, none) else none

end Discs
