import Verif.Model.Jax
import Verif.Model.TorchConvert

/-!
# Model of the image network in `discs/models/resnet.py`

`ResnetBinary` on one image (all layers treat the members of a batch separately).  An array of shape
`(height, width, channels)` is its shape and its entries; entries outside the shape are never used.  Parameters are
found by their names, as in the flattened dictionary of `pt2params.py`.  Transposed convolutions (negative strides) are
not used by the network and left out.
-/

namespace Discs

open Finset

/-- An array of shape `(h, w, c)`. -/
structure Img where
  h : ℕ
  w : ℕ
  c : ℕ
  px : ℕ → ℕ → ℕ → ℝ

/-- Entry `(u, v)` of the array with one row or column of zeros added on each side. -/
noncomputable def Img.padded (x : Img) (u v i : ℕ) : ℝ :=
  if (1 ≤ u ∧ u ≤ x.h) ∧ 1 ≤ v ∧ v ≤ x.w then x.px (u - 1) (v - 1) i else 0

/-- `nn.Conv(features, kernel_size=(3, 3), strides=stride, padding=(1, 1))` (`resnet.py:13-25`, `69-70`).  Flax computes
cross-correlations with kernels indexed by row, column, input channel, output channel. -/
noncomputable def conv3 (kernel bias : Tensor ℝ) (features stride : ℕ) (x : Img) : Img where
  h := (x.h + 2 + stride - 3) / stride
  w := (x.w + 2 + stride - 3) / stride
  c := features
  px := fun r q o => ∑ a ∈ range 3, ∑ b ∈ range 3, ∑ i ∈ range x.c,
    x.padded (r * stride + a) (q * stride + b) i * kernel.val [a, b, i, o] + bias.val [o]

/-- `nn.Conv(features, kernel_size=(1, 1), strides=stride)` (`resnet.py:49-51`): the padding is `'SAME'`, which adds nothing
for a kernel of size one and gives `ceil(n / stride)` outputs. -/
noncomputable def conv1 (kernel bias : Tensor ℝ) (features stride : ℕ) (x : Img) : Img where
  h := (x.h + stride - 1) / stride
  w := (x.w + stride - 1) / stride
  c := features
  px := fun r q o => ∑ i ∈ range x.c, x.px (r * stride) (q * stride) i * kernel.val [0, 0, i, o] + bias.val [o]

/-- `nn.activation.swish`. -/
noncomputable def swish (x : ℝ) : ℝ := x * sigmoid x

/-- An elementwise function. -/
def Img.map (f : ℝ → ℝ) (x : Img) : Img := { x with px := fun r q i => f (x.px r q i) }

/-- The sum of two arrays; `none` if the shapes differ (broadcasting of axes of length one is left out). -/
noncomputable def Img.add (x y : Img) : Option Img :=
  if x.h = y.h ∧ x.w = y.w ∧ x.c = y.c then some { x with px := fun r q i => x.px r q i + y.px r q i } else none

/-- `BasicBlock.__call__` (`resnet.py:36-58`), `expansion = 1` and `out_nonlin = True`; unnamed convolutions are numbered
in the order of their creation. -/
noncomputable def basicBlock (get : ParamKey → Tensor ℝ) (block : List Char) (planes stride : ℕ) (x : Img) : Option Img :=
  let conv := fun (name : String) (leaf : String) => get [block, name.toList, leaf.toList]
  let out := (conv3 (conv "Conv_0" "kernel") (conv "Conv_0" "bias") planes stride x).map swish
  let out := conv3 (conv "Conv_1" "kernel") (conv "Conv_1" "bias") planes 1 out
  let sc := if stride ≠ 1 ∨ x.c ≠ planes then
      conv1 (conv "shortcut_conv" "kernel") (conv "shortcut_conv" "bias") planes stride x
    else x
  (out.add sc).map fun y => y.map swish

/-- Name of the `j`-th block. -/
def blockName (j : ℕ) : List Char := "BasicBlock_".toList ++ (toString j).toList

/-- Stride of the `j`-th block (`resnet.py:71-74`). -/
def blockStride (j : ℕ) : ℕ := if j < 2 then 2 else 1

/-- `ResnetBinary.__call__` (`resnet.py:66-77`) on one image of `h * w` pixels; `none` is an error from shapes. -/
noncomputable def resnetBinary (get : ParamKey → Tensor ℝ) (n h w : ℕ) (x : ℕ → ℝ) : Option ℝ :=
  let img : Img := ⟨h, w, 1, fun r q _ => x (r * w + q)⟩
  let first := conv3 (get ["Conv_0".toList, "kernel".toList]) (get ["Conv_0".toList, "bias".toList]) n 1 img
  ((List.range 8).foldlM (fun y j => basicBlock get (blockName j) n (blockStride j) y) first).map fun y =>
    let mean := fun i => (∑ r ∈ range y.h, ∑ q ∈ range y.w, y.px r q i) / ((y.h : ℝ) * (y.w : ℝ))
    ∑ i ∈ range n, mean i * (get ["Dense_0".toList, "kernel".toList]).val [i, 0]
      + (get ["Dense_0".toList, "bias".toList]).val [0]

/-- Names and shapes of the parameters of a block. -/
def blockShapes (n j : ℕ) : List (ParamKey × List ℕ) :=
  [([blockName j, "Conv_0".toList, "kernel".toList], [3, 3, n, n]), ([blockName j, "Conv_0".toList, "bias".toList], [n]),
    ([blockName j, "Conv_1".toList, "kernel".toList], [3, 3, n, n]), ([blockName j, "Conv_1".toList, "bias".toList], [n])]
  ++ if blockStride j ≠ 1 then
      [([blockName j, "shortcut_conv".toList, "kernel".toList], [1, 1, n, n]),
        ([blockName j, "shortcut_conv".toList, "bias".toList], [n])]
    else []

/-- Names and shapes of all parameters that `net.init` creates (`resnet.py:104-109`). -/
def resnetShapes (n : ℕ) : List (ParamKey × List ℕ) :=
  [(["Conv_0".toList, "kernel".toList], [3, 3, 1, n]), (["Conv_0".toList, "bias".toList], [n])]
  ++ (List.range 8).flatMap (blockShapes n)
  ++ [(["Dense_0".toList, "kernel".toList], [n, 1]), (["Dense_0".toList, "bias".toList], [1])]

end Discs
