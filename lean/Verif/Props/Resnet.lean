import Verif.Model.Resnet
import Verif.Props.TorchConvert

/-!
# C101: a converted checkpoint gives the energies of the PyTorch network
-/

namespace Discs

open Finset

namespace Spec

/-- An array of a PyTorch network, channels first. -/
structure TImg where
  c : ℕ
  h : ℕ
  w : ℕ
  px : ℕ → ℕ → ℕ → ℝ

/-- Entry `(u, v)` of channel `i` with a border of `p` zeros. -/
noncomputable def TImg.at (x : TImg) (p i u v : ℕ) : ℝ :=
  if (p ≤ u ∧ u < x.h + p) ∧ p ≤ v ∧ v < x.w + p then x.px i (u - p) (v - p) else 0

/-- `torch.nn.Conv2d(in, out, k, stride, p)` with weight `[out, in, k, k]`. -/
noncomputable def conv2d (weight bias : Tensor ℝ) (out k stride p : ℕ) (x : TImg) : TImg where
  c := out
  h := (x.h + 2 * p - k) / stride + 1
  w := (x.w + 2 * p - k) / stride + 1
  px := fun o r q => bias.val [o]
    + ∑ i ∈ range x.c, ∑ a ∈ range k, ∑ b ∈ range k, weight.val [o, i, a, b] * x.at p i (r * stride + a) (q * stride + b)

/-- `x * sigmoid(x)` everywhere. -/
noncomputable def TImg.swish (x : TImg) : TImg := { x with px := fun i r q => x.px i r q * (1 / (1 + Real.exp (-x.px i r q))) }

/-- Sum of two arrays of one shape. -/
noncomputable def TImg.plus (x y : TImg) : TImg := { x with px := fun i r q => x.px i r q + y.px i r q }

/-- A parameter of block `j`. -/
def blockParam (j : ℕ) (mod leaf : String) : List Char :=
  "net.net.".toList ++ (toString j).toList ++ ".".toList ++ mod.toList ++ ".".toList ++ leaf.toList

/-- A residual block of the PyTorch network. -/
noncomputable def torchBlock (tw : List Char → Tensor ℝ) (j n stride : ℕ) (x : TImg) : TImg :=
  let y := conv2d (tw (blockParam j "conv2" "weight")) (tw (blockParam j "conv2" "bias")) n 3 1 1
    (conv2d (tw (blockParam j "conv1" "weight")) (tw (blockParam j "conv1" "bias")) n 3 stride 1 x).swish
  let sc := if stride = 1 then x else
    conv2d (tw (blockParam j "shortcut_conv" "weight")) (tw (blockParam j "shortcut_conv" "bias")) n 1 stride 0 x
  (y.plus sc).swish

/-- The PyTorch network whose state dictionary `pt2params` reads: projection, two blocks of stride two, six of stride
one, average over the pixels, linear layer. -/
noncomputable def torchNet (tw : List Char → Tensor ℝ) (n h w : ℕ) (x : ℕ → ℝ) : ℝ :=
  let x0 : TImg := conv2d (tw "net.proj.weight".toList) (tw "net.proj.bias".toList) n 3 1 1
    ⟨1, h, w, fun _ r q => x (r * w + q)⟩
  let y := torchBlock tw 7 n 1 (torchBlock tw 6 n 1 (torchBlock tw 5 n 1 (torchBlock tw 4 n 1 (torchBlock tw 3 n 1
    (torchBlock tw 2 n 1 (torchBlock tw 1 n 2 (torchBlock tw 0 n 2 x0)))))))
  (tw "net.energy_linear.bias".toList).val [0] + ∑ i ∈ range n,
    (tw "net.energy_linear.weight".toList).val [0, i] * ((∑ r ∈ range y.h, ∑ q ∈ range y.w, y.px i r q) / ((y.h : ℝ) * (y.w : ℝ)))

/-- The names in the state dictionary of such a network. -/
def torchNames : List (List Char) :=
  ["net.proj.weight".toList, "net.proj.bias".toList]
  ++ (List.range 8).flatMap (fun j =>
      [blockParam j "conv1" "weight", blockParam j "conv1" "bias", blockParam j "conv2" "weight",
        blockParam j "conv2" "bias"]
      ++ if j < 2 then [blockParam j "shortcut_conv" "weight", blockParam j "shortcut_conv" "bias"] else [])
  ++ ["net.energy_linear.weight".toList, "net.energy_linear.bias".toList]

end Spec

/-! ### Layers -/

/-- The same array, channels last and channels first. -/
def Same (x : Img) (y : Spec.TImg) : Prop :=
  x.h = y.h ∧ x.w = y.w ∧ x.c = y.c ∧ ∀ r q i, r < x.h → q < x.w → x.px r q i = y.px i r q

private theorem padded_eq {x : Img} {y : Spec.TImg} (h : Same x y) (u v i : ℕ) : x.padded u v i = y.at 1 i u v := by
  obtain ⟨h1, h2, -, h4⟩ := h
  unfold Img.padded Spec.TImg.at
  by_cases hc : (1 ≤ u ∧ u ≤ x.h) ∧ 1 ≤ v ∧ v ≤ x.w
  · rw [if_pos hc, if_pos (by omega), h4 _ _ _ (by omega) (by omega)]
  · rw [if_neg hc, if_neg (by omega)]

private theorem ceil_stride {n s : ℕ} (hn : 0 < n) (hs : 0 < s) : (n + s - 1) / s = (n - 1) / s + 1 := by
  rw [show n + s - 1 = n - 1 + s by omega, Nat.add_div_right _ hs]

private theorem out_size {n s : ℕ} (hn : 0 < n) (hs : 0 < s) : (n + 2 + s - 3) / s = (n - 1) / s + 1 := by
  rw [show n + 2 + s - 3 = n + s - 1 by omega, ceil_stride hn hs]

private theorem same_conv3 {x : Img} {y : Spec.TImg} (h : Same x y) (hh : 0 < x.h) (hw : 0 < x.w)
    (weight bias : Tensor ℝ) (n stride : ℕ) (hs : 0 < stride) :
    Same (conv3 (transpose4 weight) bias n stride x) (Spec.conv2d weight bias n 3 stride 1 y) := by
  refine ⟨?_, ?_, rfl, fun r q o _ _ => ?_⟩
  · change (x.h + 2 + stride - 3) / stride = (y.h + 2 * 1 - 3) / stride + 1
    rw [out_size hh hs, h.1]
    congr 2
  · change (x.w + 2 + stride - 3) / stride = (y.w + 2 * 1 - 3) / stride + 1
    rw [out_size hw hs, h.2.1]
    congr 2
  · simp only [conv3, Spec.conv2d, padded_eq h, h.2.2.1]
    rw [add_comm]
    congr 1
    rw [Finset.sum_congr rfl fun a _ => Finset.sum_comm, Finset.sum_comm]
    refine Finset.sum_congr rfl fun i _ => Finset.sum_congr rfl fun a _ => Finset.sum_congr rfl fun b _ => ?_
    rw [mul_comm]
    rfl

private theorem same_conv1 {x : Img} {y : Spec.TImg} (h : Same x y) (hh : 0 < x.h) (hw : 0 < x.w)
    (weight bias : Tensor ℝ) (n stride : ℕ) (hs : 0 < stride) :
    Same (conv1 (transpose4 weight) bias n stride x) (Spec.conv2d weight bias n 1 stride 0 y) := by
  have e1 : (conv1 (transpose4 weight) bias n stride x).h = (x.h - 1) / stride + 1 := ceil_stride hh hs
  have e2 : (conv1 (transpose4 weight) bias n stride x).w = (x.w - 1) / stride + 1 := ceil_stride hw hs
  refine ⟨?_, ?_, rfl, fun r q o hr hq => ?_⟩
  · rw [e1]; simp only [Spec.conv2d, h.1]; rfl
  · rw [e2]; simp only [Spec.conv2d, h.2.1]; rfl
  · rw [e1] at hr
    rw [e2] at hq
    have hr' : r * stride < x.h := by
      have : r * stride ≤ x.h - 1 := (Nat.mul_le_mul_right _ (by omega)).trans (Nat.div_mul_le_self _ _)
      omega
    have hq' : q * stride < x.w := by
      have : q * stride ≤ x.w - 1 := (Nat.mul_le_mul_right _ (by omega)).trans (Nat.div_mul_le_self _ _)
      omega
    simp only [conv1, Spec.conv2d, Finset.sum_range_one, Nat.add_zero, h.2.2.1]
    rw [add_comm]
    congr 1
    refine Finset.sum_congr rfl fun i _ => ?_
    rw [h.2.2.2 _ _ _ hr' hq', mul_comm]
    unfold Spec.TImg.at
    rw [if_pos (by rw [← h.1, ← h.2.1]; omega)]
    rfl

private theorem same_swish {x : Img} {y : Spec.TImg} (h : Same x y) : Same (x.map swish) y.swish :=
  ⟨h.1, h.2.1, h.2.2.1, fun r q i hr hq => by
    change swish (x.px r q i) = _
    rw [h.2.2.2 r q i hr hq]
    rfl⟩

private theorem same_add {x x' : Img} {y y' : Spec.TImg} (h : Same x y) (h' : Same x' y') (e1 : x.h = x'.h)
    (e2 : x.w = x'.w) (e3 : x.c = x'.c) : ∃ z, x.add x' = some z ∧ Same z (y.plus y') := by
  refine ⟨_, if_pos ⟨e1, e2, e3⟩, h.1, h.2.1, h.2.2.1, fun r q i hr hq => ?_⟩
  change x.px r q i + x'.px r q i = y.px i r q + y'.px i r q
  rw [h.2.2.2 r q i hr hq, h'.2.2.2 r q i (e1 ▸ hr) (e2 ▸ hq)]

/-- Parameters found under the names of the two networks agree. -/
structure Spec.Converted (get : ParamKey → Tensor ℝ) (tw : List Char → Tensor ℝ) : Prop where
  proj : get ["Conv_0".toList, "kernel".toList] = transpose4 (tw "net.proj.weight".toList)
  projBias : get ["Conv_0".toList, "bias".toList] = tw "net.proj.bias".toList
  conv1 : ∀ j < 8, get [blockName j, "Conv_0".toList, "kernel".toList] = transpose4 (tw (Spec.blockParam j "conv1" "weight"))
  conv1Bias : ∀ j < 8, get [blockName j, "Conv_0".toList, "bias".toList] = tw (Spec.blockParam j "conv1" "bias")
  conv2 : ∀ j < 8, get [blockName j, "Conv_1".toList, "kernel".toList] = transpose4 (tw (Spec.blockParam j "conv2" "weight"))
  conv2Bias : ∀ j < 8, get [blockName j, "Conv_1".toList, "bias".toList] = tw (Spec.blockParam j "conv2" "bias")
  short : ∀ j < 2, get [blockName j, "shortcut_conv".toList, "kernel".toList]
    = transpose4 (tw (Spec.blockParam j "shortcut_conv" "weight"))
  shortBias : ∀ j < 2, get [blockName j, "shortcut_conv".toList, "bias".toList]
    = tw (Spec.blockParam j "shortcut_conv" "bias")
  dense : get ["Dense_0".toList, "kernel".toList] = transpose2 (tw "net.energy_linear.weight".toList)
  denseBias : get ["Dense_0".toList, "bias".toList] = tw "net.energy_linear.bias".toList

private theorem same_block {get : ParamKey → Tensor ℝ} {tw : List Char → Tensor ℝ} (hc : Spec.Converted get tw)
    {x : Img} {y : Spec.TImg} (h : Same x y) (hh : 0 < x.h) (hw : 0 < x.w) {n : ℕ} (hn : x.c = n) (j : ℕ) (hj : j < 8) :
    ∃ z, basicBlock get (blockName j) n (blockStride j) x = some z ∧
      Same z (Spec.torchBlock tw j n (blockStride j) y) ∧ 0 < z.h ∧ 0 < z.w ∧ z.c = n := by
  have hs : 0 < blockStride j := by unfold blockStride; split_ifs <;> norm_num
  have ph : ∀ m : ℕ, 0 < m → 0 < (m + 2 + blockStride j - 3) / blockStride j := fun m hm => by
    rw [out_size hm hs]; exact Nat.succ_pos _
  have h1 := same_swish (same_conv3 h hh hw (tw (Spec.blockParam j "conv1" "weight"))
    (tw (Spec.blockParam j "conv1" "bias")) n (blockStride j) hs)
  have h2 := same_conv3 h1 (ph _ hh) (ph _ hw) (tw (Spec.blockParam j "conv2" "weight"))
    (tw (Spec.blockParam j "conv2" "bias")) n 1 Nat.one_pos
  have d1 : ∀ m : ℕ, (m + 2 + 1 - 3) / 1 = m := fun m => by rw [Nat.div_one]; omega
  unfold basicBlock
  simp only [hc.conv1 j hj, hc.conv1Bias j hj, hc.conv2 j hj, hc.conv2Bias j hj]
  by_cases hst : blockStride j = 1
  · rw [if_neg (by rw [hst, hn]; simp)]
    obtain ⟨z, hz, hsz⟩ := same_add h2 h
      (show ((x.h + 2 + blockStride j - 3) / blockStride j + 2 + 1 - 3) / 1 = x.h by
        rw [d1, hst, Nat.div_one]; omega)
      (show ((x.w + 2 + blockStride j - 3) / blockStride j + 2 + 1 - 3) / 1 = x.w by
        rw [d1, hst, Nat.div_one]; omega) hn.symm
    rw [hz]
    refine ⟨_, rfl, ?_, ?_, ?_, ?_⟩
    · have : Spec.torchBlock tw j n (blockStride j) y = ((Spec.conv2d (tw (Spec.blockParam j "conv2" "weight"))
          (tw (Spec.blockParam j "conv2" "bias")) n 3 1 1 (Spec.conv2d (tw (Spec.blockParam j "conv1" "weight"))
          (tw (Spec.blockParam j "conv1" "bias")) n 3 (blockStride j) 1 y).swish).plus y).swish := by
        unfold Spec.torchBlock; simp only []; rw [if_pos hst]
      rw [this]
      exact same_swish hsz
    · change 0 < z.h; rw [hsz.1]; exact Nat.succ_pos _
    · change 0 < z.w; rw [hsz.2.1]; exact Nat.succ_pos _
    · change z.c = n; rw [hsz.2.2.1]; rfl
  · have hj2 : j < 2 := by
      unfold blockStride at hst
      by_contra hcon
      rw [if_neg hcon] at hst
      exact hst rfl
    rw [if_pos (Or.inl hst), hc.short j hj2, hc.shortBias j hj2]
    have h3 := same_conv1 h hh hw (tw (Spec.blockParam j "shortcut_conv" "weight"))
      (tw (Spec.blockParam j "shortcut_conv" "bias")) n (blockStride j) hs
    obtain ⟨z, hz, hsz⟩ := same_add h2 h3
      (show ((x.h + 2 + blockStride j - 3) / blockStride j + 2 + 1 - 3) / 1
          = (x.h + blockStride j - 1) / blockStride j by rw [d1, show x.h + 2 + blockStride j - 3 = x.h + blockStride j - 1 by omega])
      (show ((x.w + 2 + blockStride j - 3) / blockStride j + 2 + 1 - 3) / 1
          = (x.w + blockStride j - 1) / blockStride j by rw [d1, show x.w + 2 + blockStride j - 3 = x.w + blockStride j - 1 by omega]) rfl
    rw [hz]
    refine ⟨_, rfl, ?_, ?_, ?_, ?_⟩
    · have : Spec.torchBlock tw j n (blockStride j) y = ((Spec.conv2d (tw (Spec.blockParam j "conv2" "weight"))
          (tw (Spec.blockParam j "conv2" "bias")) n 3 1 1 (Spec.conv2d (tw (Spec.blockParam j "conv1" "weight"))
          (tw (Spec.blockParam j "conv1" "bias")) n 3 (blockStride j) 1 y).swish).plus
          (Spec.conv2d (tw (Spec.blockParam j "shortcut_conv" "weight")) (tw (Spec.blockParam j "shortcut_conv" "bias")) n 1
            (blockStride j) 0 y)).swish := by
        unfold Spec.torchBlock; simp only []; rw [if_neg hst]
      rw [this]
      exact same_swish hsz
    · change 0 < z.h; rw [hsz.1]; exact Nat.succ_pos _
    · change 0 < z.w; rw [hsz.2.1]; exact Nat.succ_pos _
    · change z.c = n; rw [hsz.2.2.1]; rfl

/-- The network with converted parameters is defined for images of every size and computes what the PyTorch network
computes. -/
theorem resnet_torch {get : ParamKey → Tensor ℝ} {tw : List Char → Tensor ℝ} (hc : Spec.Converted get tw) (n h w : ℕ)
    (hh : 0 < h) (hw : 0 < w) (x : ℕ → ℝ) : resnetBinary get n h w x = some (Spec.torchNet tw n h w x) := by
  have h0 : Same ⟨h, w, 1, fun r q _ => x (r * w + q)⟩ ⟨1, h, w, fun _ r q => x (r * w + q)⟩ :=
    ⟨rfl, rfl, rfl, fun _ _ _ _ _ => rfl⟩
  have s0 := same_conv3 h0 hh hw (tw "net.proj.weight".toList) (tw "net.proj.bias".toList) n 1 Nat.one_pos
  obtain ⟨z0, e0, s0, p0, q0, c0⟩ := same_block hc s0 (show 0 < (h + 2 + 1 - 3) / 1 by rw [Nat.div_one]; omega)
    (show 0 < (w + 2 + 1 - 3) / 1 by rw [Nat.div_one]; omega) (n := n) rfl 0 (by norm_num)
  obtain ⟨z1, e1, s1, p1, q1, c1⟩ := same_block hc s0 p0 q0 c0 1 (by norm_num)
  obtain ⟨z2, e2, s2, p2, q2, c2⟩ := same_block hc s1 p1 q1 c1 2 (by norm_num)
  obtain ⟨z3, e3, s3, p3, q3, c3⟩ := same_block hc s2 p2 q2 c2 3 (by norm_num)
  obtain ⟨z4, e4, s4, p4, q4, c4⟩ := same_block hc s3 p3 q3 c3 4 (by norm_num)
  obtain ⟨z5, e5, s5, p5, q5, c5⟩ := same_block hc s4 p4 q4 c4 5 (by norm_num)
  obtain ⟨z6, e6, s6, p6, q6, c6⟩ := same_block hc s5 p5 q5 c5 6 (by norm_num)
  obtain ⟨z7, e7, s7, -, -, -⟩ := same_block hc s6 p6 q6 c6 7 (by norm_num)
  have hf : (List.range 8).foldlM (fun y j => basicBlock get (blockName j) n (blockStride j) y)
      (conv3 (transpose4 (tw "net.proj.weight".toList)) (tw "net.proj.bias".toList) n 1
        ⟨h, w, 1, fun r q _ => x (r * w + q)⟩) = some z7 := by
    change List.foldlM _ _ [0, 1, 2, 3, 4, 5, 6, 7] = _
    rw [List.foldlM_cons, e0, Option.bind_eq_bind, Option.bind_some, List.foldlM_cons, e1, Option.bind_eq_bind,
      Option.bind_some, List.foldlM_cons, e2, Option.bind_eq_bind, Option.bind_some, List.foldlM_cons, e3,
      Option.bind_eq_bind, Option.bind_some, List.foldlM_cons, e4, Option.bind_eq_bind, Option.bind_some,
      List.foldlM_cons, e5, Option.bind_eq_bind, Option.bind_some, List.foldlM_cons, e6, Option.bind_eq_bind,
      Option.bind_some, List.foldlM_cons, e7, Option.bind_eq_bind, Option.bind_some]
    rfl
  unfold resnetBinary
  rw [hc.proj, hc.projBias, hc.dense, hc.denseBias]
  simp only []
  rw [hf, Option.map_some]
  congr 1
  obtain ⟨a1, a2, -, a4⟩ := s7
  unfold Spec.torchNet
  rw [add_comm]
  congr 1
  refine Finset.sum_congr rfl fun i _ => ?_
  rw [mul_comm]
  congr 1
  rw [Finset.sum_congr rfl fun r hr => Finset.sum_congr rfl fun q hq =>
      a4 r q i (Finset.mem_range.1 hr) (Finset.mem_range.1 hq), a1, a2]
  rfl

/-! ### Conversion -/

namespace Spec

/-- Shapes in the state dictionary of the PyTorch network. -/
def torchShapes (n : ℕ) : List (List Char × List ℕ) :=
  [("net.proj.weight".toList, [n, 1, 3, 3]), ("net.proj.bias".toList, [n])]
  ++ (List.range 8).flatMap (fun j =>
      [(blockParam j "conv1" "weight", [n, n, 3, 3]), (blockParam j "conv1" "bias", [n]),
        (blockParam j "conv2" "weight", [n, n, 3, 3]), (blockParam j "conv2" "bias", [n])]
      ++ if j < 2 then
          [(blockParam j "shortcut_conv" "weight", [n, n, 1, 1]), (blockParam j "shortcut_conv" "bias", [n])]
        else [])
  ++ [("net.energy_linear.weight".toList, [1, n]), ("net.energy_linear.bias".toList, [1])]

/-- The parameters of a dictionary by name. -/
noncomputable def byName {K : Type} [DecidableEq K] (d : List (K × Tensor ℝ)) (k : K) : Tensor ℝ :=
  (dictGet d k).getD ⟨[], fun _ => 0⟩

end Spec

private theorem torchShapes_names (n : ℕ) : (Spec.torchShapes n).map Prod.fst = Spec.torchNames := rfl

private theorem names_nodup : ("mean".toList :: Spec.torchNames).Nodup := by decide +kernel

private theorem keys_nodup (n : ℕ) : ((resnetShapes n).map Prod.fst).Nodup := by
  have : (resnetShapes n).map Prod.fst = (resnetShapes 0).map Prod.fst := rfl
  rw [this]
  decide +kernel

private theorem names_std : ∀ t ∈ Spec.torchNames, Spec.StandardName t := by
  have h : ∀ t ∈ Spec.torchNames, (t.drop 4).splitOn '.' |>.getD 2 [] |> fun m =>
      ((t.drop 4).splitOn '.').length = 4 →
        m = "conv1".toList ∨ m = "conv2".toList ∨ m = "shortcut_conv".toList := by decide +kernel
  intro t ht a layer mod p hs
  have := h t ht
  rw [hs] at this
  exact this rfl

private theorem dictGet_of_mem {K V : Type} [DecidableEq K] : ∀ {d : List (K × V)}, (d.map Prod.fst).Nodup →
    ∀ {k : K} {v : V}, (k, v) ∈ d → dictGet d k = some v := by
  intro d
  induction d with
  | nil => intro _ k v h; simp at h
  | cons p d ih =>
    intro hn k v h
    rw [List.map_cons, List.nodup_cons] at hn
    rcases List.mem_cons.1 h with rfl | h
    · simp [dictGet]
    · have hne : p.1 ≠ k := fun e => hn.1 (e ▸ List.mem_map_of_mem (f := Prod.fst) h)
      have := ih hn.2 h
      unfold dictGet at this ⊢
      rw [List.find?_cons_of_neg (by simpa using hne)]
      exact this

private theorem mem_of_dictGet {K V : Type} [DecidableEq K] {d : List (K × V)} {k : K} {v : V} (h : dictGet d k = some v) :
    (k, v) ∈ d := by
  unfold dictGet at h
  obtain ⟨p, hp, rfl⟩ := Option.map_eq_some_iff.1 h
  have h1 := List.find?_some hp
  have h2 := List.mem_of_find?_eq_some hp
  have : p.1 = k := by simpa using h1
  rw [← this]
  exact h2

section Convert

variable {n : ℕ} {params params' : List (ParamKey × Tensor ℝ)} {mean : Option (Tensor ℝ)}
  {th : List (List Char × Tensor ℝ)}

private theorem fetch (hp : (params.map fun e => (e.1, e.2.shape)).Perm (resnetShapes n))
    (ht : (th.map Prod.fst).Perm ("mean".toList :: Spec.torchNames)) (h : convertTorch params th = some (params', mean))
    {t : List Char} {key : ParamKey} {s : List ℕ} (htm : t ∈ Spec.torchNames) (hk : torchTarget t = some key)
    (hs : (key, s) ∈ resnetShapes n) :
    toFlax key (Spec.byName th t) = some (Spec.byName params' key) ∧ (Spec.byName params' key).shape = s := by
  have hpf : (params.map Prod.fst).Perm ((resnetShapes n).map Prod.fst) := by
    have := hp.map Prod.fst
    rwa [List.map_map] at this
  have hpn : (params.map Prod.fst).Nodup := hpf.nodup_iff.2 (keys_nodup n)
  have hnd : (th.map Prod.fst).Nodup := ht.nodup_iff.2 names_nodup
  have hstd : ∀ e ∈ th, e.1 ≠ "mean".toList → Spec.StandardName e.1 := by
    intro e he hm
    rcases List.mem_cons.1 (ht.mem_iff.1 (List.mem_map_of_mem (f := Prod.fst) he)) with h | h
    · exact absurd h hm
    · exact names_std _ h
  obtain ⟨-, -, h3, -⟩ := convertTorch_spec params params' mean th hpn hnd hstd h
  have htm' : t ∈ th.map Prod.fst := ht.mem_iff.2 (List.mem_cons_of_mem _ htm)
  obtain ⟨⟨t', v⟩, he, rfl⟩ := List.mem_map.1 htm'
  have hne : t' ≠ "mean".toList := fun e => (List.nodup_cons.1 names_nodup).1 (e ▸ htm)
  obtain ⟨key', old, w, e1, e2, e3, e4, e5⟩ := h3 _ he hne
  obtain rfl : key = key' := Option.some.inj (hk.symm.trans e1)
  have hold : (key, old.shape) ∈ resnetShapes n :=
    hp.mem_iff.1 (List.mem_map.2 ⟨(key, old), mem_of_dictGet e2, rfl⟩)
  have hss : old.shape = s := by
    have a := dictGet_of_mem (keys_nodup n) hold
    rw [dictGet_of_mem (keys_nodup n) hs] at a
    exact (Option.some.inj a).symm
  unfold Spec.byName
  rw [dictGet_of_mem hnd he, e5]
  exact ⟨e3, e4.trans hss⟩

private theorem fetch4 (hp : (params.map fun e => (e.1, e.2.shape)).Perm (resnetShapes n))
    (ht : (th.map Prod.fst).Perm ("mean".toList :: Spec.torchNames)) (h : convertTorch params th = some (params', mean))
    {t : List Char} {key : ParamKey} {s : List ℕ} (htm : t ∈ Spec.torchNames) (hk : torchTarget t = some key)
    (hs : (key, s) ∈ resnetShapes n) (hl : s.length = 4) (hkl : key.getLast? = some "kernel".toList) :
    Spec.byName params' key = transpose4 (Spec.byName th t) := by
  obtain ⟨h1, h2⟩ := fetch hp ht h htm hk hs
  rw [toFlax, if_pos hkl] at h1
  split_ifs at h1 with a b
  · exact (Option.some.inj h1).symm
  · have := congrArg Tensor.shape (Option.some.inj h1)
    rw [h2] at this
    rw [← this] at hl
    exact absurd hl (by simp [transpose2])

private theorem fetch2 (hp : (params.map fun e => (e.1, e.2.shape)).Perm (resnetShapes n))
    (ht : (th.map Prod.fst).Perm ("mean".toList :: Spec.torchNames)) (h : convertTorch params th = some (params', mean))
    {t : List Char} {key : ParamKey} {s : List ℕ} (htm : t ∈ Spec.torchNames) (hk : torchTarget t = some key)
    (hs : (key, s) ∈ resnetShapes n) (hl : s.length = 2) (hkl : key.getLast? = some "kernel".toList) :
    Spec.byName params' key = transpose2 (Spec.byName th t) := by
  obtain ⟨h1, h2⟩ := fetch hp ht h htm hk hs
  rw [toFlax, if_pos hkl] at h1
  split_ifs at h1 with a b
  · have := congrArg Tensor.shape (Option.some.inj h1)
    rw [h2] at this
    rw [← this] at hl
    exact absurd hl (by simp [transpose4])
  · exact (Option.some.inj h1).symm

private theorem fetchBias (hp : (params.map fun e => (e.1, e.2.shape)).Perm (resnetShapes n))
    (ht : (th.map Prod.fst).Perm ("mean".toList :: Spec.torchNames)) (h : convertTorch params th = some (params', mean))
    {t : List Char} {key : ParamKey} {s : List ℕ} (htm : t ∈ Spec.torchNames) (hk : torchTarget t = some key)
    (hs : (key, s) ∈ resnetShapes n) (hkl : key.getLast? = some "bias".toList) :
    Spec.byName params' key = Spec.byName th t := by
  obtain ⟨h1, -⟩ := fetch hp ht h htm hk hs
  rw [toFlax_bias _ hkl] at h1
  exact (Option.some.inj h1).symm

private theorem f1w : ∀ j < 8, Spec.blockParam j "conv1" "weight" ∈ Spec.torchNames ∧
    torchTarget (Spec.blockParam j "conv1" "weight") = some [blockName j, "Conv_0".toList, "kernel".toList] := by
  decide +kernel

private theorem f1b : ∀ j < 8, Spec.blockParam j "conv1" "bias" ∈ Spec.torchNames ∧
    torchTarget (Spec.blockParam j "conv1" "bias") = some [blockName j, "Conv_0".toList, "bias".toList] := by
  decide +kernel

private theorem f2w : ∀ j < 8, Spec.blockParam j "conv2" "weight" ∈ Spec.torchNames ∧
    torchTarget (Spec.blockParam j "conv2" "weight") = some [blockName j, "Conv_1".toList, "kernel".toList] := by
  decide +kernel

private theorem f2b : ∀ j < 8, Spec.blockParam j "conv2" "bias" ∈ Spec.torchNames ∧
    torchTarget (Spec.blockParam j "conv2" "bias") = some [blockName j, "Conv_1".toList, "bias".toList] := by
  decide +kernel

private theorem fsw : ∀ j < 2, Spec.blockParam j "shortcut_conv" "weight" ∈ Spec.torchNames ∧
    torchTarget (Spec.blockParam j "shortcut_conv" "weight") = some [blockName j, "shortcut_conv".toList, "kernel".toList] := by
  decide +kernel

private theorem fsb : ∀ j < 2, Spec.blockParam j "shortcut_conv" "bias" ∈ Spec.torchNames ∧
    torchTarget (Spec.blockParam j "shortcut_conv" "bias") = some [blockName j, "shortcut_conv".toList, "bias".toList] := by
  decide +kernel

private theorem in_block {j : ℕ} (hj : j < 8) {e : ParamKey × List ℕ} (h : e ∈ blockShapes n j) : e ∈ resnetShapes n :=
  List.mem_append_left _ (List.mem_append_right _ (List.mem_flatMap.2 ⟨j, List.mem_range.2 hj, h⟩))

private theorem in_short {j : ℕ} (hj : j < 2) {e : ParamKey × List ℕ}
    (h : e ∈ [([blockName j, "shortcut_conv".toList, "kernel".toList], [1, 1, n, n]),
        ([blockName j, "shortcut_conv".toList, "bias".toList], [n])]) : e ∈ resnetShapes n := by
  refine in_block (show j < 8 by omega) (List.mem_append_right _ ?_)
  rw [if_pos (by unfold blockStride; rw [if_pos hj]; norm_num)]
  exact h

/-- **C101 (parameters).**  A checkpoint with the names of the PyTorch network that the conversion accepts ends up, with
transposed weights, in exactly the parameters that the Flax network reads. -/
theorem convertTorch_converted (hp : (params.map fun e => (e.1, e.2.shape)).Perm (resnetShapes n))
    (ht : (th.map Prod.fst).Perm ("mean".toList :: Spec.torchNames)) (h : convertTorch params th = some (params', mean)) :
    Spec.Converted (Spec.byName params') (Spec.byName th) where
  proj := fetch4 hp ht h (by decide +kernel) (by decide +kernel) (List.mem_append_left _ (List.mem_append_left _
    (.head _))) rfl rfl
  projBias := fetchBias hp ht h (by decide +kernel) (by decide +kernel) (List.mem_append_left _ (List.mem_append_left _
    (.tail _ (.head _)))) rfl
  conv1 := fun j hj => fetch4 hp ht h (f1w j hj).1 (f1w j hj).2 (in_block hj (List.mem_append_left _ (.head _))) rfl rfl
  conv1Bias := fun j hj => fetchBias hp ht h (f1b j hj).1 (f1b j hj).2
    (in_block hj (List.mem_append_left _ (.tail _ (.head _)))) rfl
  conv2 := fun j hj => fetch4 hp ht h (f2w j hj).1 (f2w j hj).2
    (in_block hj (List.mem_append_left _ (.tail _ (.tail _ (.head _))))) rfl rfl
  conv2Bias := fun j hj => fetchBias hp ht h (f2b j hj).1 (f2b j hj).2
    (in_block hj (List.mem_append_left _ (.tail _ (.tail _ (.tail _ (.head _)))))) rfl
  short := fun j hj => fetch4 hp ht h (fsw j hj).1 (fsw j hj).2 (in_short hj (.head _)) rfl rfl
  shortBias := fun j hj => fetchBias hp ht h (fsb j hj).1 (fsb j hj).2 (in_short hj (.tail _ (.head _))) rfl
  dense := fetch2 hp ht h (by decide +kernel) (by decide +kernel) (List.mem_append_right _ (.head _)) rfl rfl
  denseBias := fetchBias hp ht h (by decide +kernel) (by decide +kernel) (List.mem_append_right _ (.tail _ (.head _))) rfl

/-- **C101.**  With a converted checkpoint the Flax network gives, on images of every size, the energy that the PyTorch
network gives with the checkpoint. -/
theorem resnet_converted (hp : (params.map fun e => (e.1, e.2.shape)).Perm (resnetShapes n))
    (ht : (th.map Prod.fst).Perm ("mean".toList :: Spec.torchNames)) (h : convertTorch params th = some (params', mean))
    (height width : ℕ) (hh : 0 < height) (hw : 0 < width) (x : ℕ → ℝ) :
    resnetBinary (Spec.byName params') n height width x = some (Spec.torchNet (Spec.byName th) n height width x) :=
  resnet_torch (convertTorch_converted hp ht h) n height width hh hw x

/-! ### Every checkpoint of the right shapes is accepted -/

private theorem target_shape {t : List Char} {s : List ℕ} (h : (t, s) ∈ Spec.torchShapes n) (v : Tensor ℝ) (hv : v.shape = s) :
    ∃ key s' u, torchTarget t = some key ∧ (key, s') ∈ resnetShapes n ∧ toFlax key v = some u ∧ u.shape = s' := by
  have k4 : ∀ (key : ParamKey) (a b c d : ℕ), key.getLast? = some "kernel".toList → v.shape = [a, b, c, d] →
      ∃ u, toFlax key v = some u ∧ u.shape = [c, d, b, a] := by
    intro key a b c d hk he
    refine ⟨transpose4 v, ?_, by simp [transpose4, he]⟩
    rw [toFlax, if_pos hk, if_pos (by rw [he]; rfl)]
  have kb : ∀ key : ParamKey, key.getLast? = some "bias".toList → v.shape = s → ∃ u, toFlax key v = some u ∧ u.shape = s :=
    fun key hk he => ⟨v, toFlax_bias key hk v, he⟩
  rcases List.mem_append.1 h with h | h
  · rcases List.mem_append.1 h with h | h
    · rcases List.mem_cons.1 h with e | h
      · obtain ⟨rfl, rfl⟩ := Prod.mk.inj e
        obtain ⟨u, hu, hu'⟩ := k4 ["Conv_0".toList, "kernel".toList] _ _ _ _ rfl hv
        exact ⟨_, _, u, by decide +kernel, List.mem_append_left _ (List.mem_append_left _ (.head _)), hu, hu'⟩
      · obtain ⟨rfl, rfl⟩ := Prod.mk.inj (List.mem_singleton.1 h)
        obtain ⟨u, hu, hu'⟩ := kb ["Conv_0".toList, "bias".toList] rfl hv
        exact ⟨_, _, u, by decide +kernel, List.mem_append_left _ (List.mem_append_left _ (.tail _ (.head _))), hu, hu'⟩
    · obtain ⟨j, hj, h⟩ := List.mem_flatMap.1 h
      rw [List.mem_range] at hj
      rcases List.mem_append.1 h with h | h
      · rcases List.mem_cons.1 h with e | h
        · obtain ⟨rfl, rfl⟩ := Prod.mk.inj e
          obtain ⟨u, hu, hu'⟩ := k4 [blockName j, "Conv_0".toList, "kernel".toList] _ _ _ _ rfl hv
          exact ⟨_, _, u, (f1w j hj).2, in_block hj (List.mem_append_left _ (.head _)), hu, hu'⟩
        rcases List.mem_cons.1 h with e | h
        · obtain ⟨rfl, rfl⟩ := Prod.mk.inj e
          obtain ⟨u, hu, hu'⟩ := kb [blockName j, "Conv_0".toList, "bias".toList] rfl hv
          exact ⟨_, _, u, (f1b j hj).2, in_block hj (List.mem_append_left _ (.tail _ (.head _))), hu, hu'⟩
        rcases List.mem_cons.1 h with e | h
        · obtain ⟨rfl, rfl⟩ := Prod.mk.inj e
          obtain ⟨u, hu, hu'⟩ := k4 [blockName j, "Conv_1".toList, "kernel".toList] _ _ _ _ rfl hv
          exact ⟨_, _, u, (f2w j hj).2, in_block hj (List.mem_append_left _ (.tail _ (.tail _ (.head _)))), hu, hu'⟩
        · obtain ⟨rfl, rfl⟩ := Prod.mk.inj (List.mem_singleton.1 h)
          obtain ⟨u, hu, hu'⟩ := kb [blockName j, "Conv_1".toList, "bias".toList] rfl hv
          exact ⟨_, _, u, (f2b j hj).2, in_block hj (List.mem_append_left _ (.tail _ (.tail _ (.tail _ (.head _))))), hu, hu'⟩
      · split_ifs at h with hj2
        · rcases List.mem_cons.1 h with e | h
          · obtain ⟨rfl, rfl⟩ := Prod.mk.inj e
            obtain ⟨u, hu, hu'⟩ := k4 [blockName j, "shortcut_conv".toList, "kernel".toList] _ _ _ _ rfl hv
            exact ⟨_, _, u, (fsw j hj2).2, in_short hj2 (.head _), hu, hu'⟩
          · obtain ⟨rfl, rfl⟩ := Prod.mk.inj (List.mem_singleton.1 h)
            obtain ⟨u, hu, hu'⟩ := kb [blockName j, "shortcut_conv".toList, "bias".toList] rfl hv
            exact ⟨_, _, u, (fsb j hj2).2, in_short hj2 (.tail _ (.head _)), hu, hu'⟩
        · simp at h
  · rcases List.mem_cons.1 h with e | h
    · obtain ⟨rfl, rfl⟩ := Prod.mk.inj e
      refine ⟨["Dense_0".toList, "kernel".toList], [n, 1], transpose2 v, by decide +kernel, List.mem_append_right _ (.head _),
        ?_, by simp [transpose2, hv]⟩
      rw [toFlax, if_pos (show List.getLast? ["Dense_0".toList, "kernel".toList] = some "kernel".toList from rfl),
        if_neg (by rw [hv]; simp), if_pos (by rw [hv]; rfl)]
    · obtain ⟨rfl, rfl⟩ := Prod.mk.inj (List.mem_singleton.1 h)
      obtain ⟨u, hu, hu'⟩ := kb ["Dense_0".toList, "bias".toList] rfl hv
      exact ⟨_, _, u, by decide +kernel, List.mem_append_right _ (.tail _ (.head _)), hu, hu'⟩

private theorem shapes_set {d : List (ParamKey × Tensor ℝ)} {key : ParamKey} {old v : Tensor ℝ} (hn : (d.map Prod.fst).Nodup)
    (ho : dictGet d key = some old) (hs : old.shape = v.shape) :
    (dictSet d key v).map (fun e => (e.1, e.2.shape)) = d.map fun e => (e.1, e.2.shape) := by
  have hm := mem_of_dictGet ho
  unfold dictSet
  rw [if_pos (List.any_eq_true.2 ⟨_, hm, by simp⟩), List.map_map]
  refine List.map_congr_left fun e he => ?_
  change ((if e.1 = key then (key, v) else e).1, (if e.1 = key then (key, v) else e).2.shape) = _
  split_ifs with hk
  · have := dictGet_of_mem hn (show (key, e.2) ∈ d by rw [← hk]; exact he)
    rw [ho] at this
    rw [← hk, ← hs, Option.some.inj this]
  · rfl

private theorem loop_accepts (l : List (List Char × Tensor ℝ))
    (hl : ∀ e ∈ l, e.1 = "mean".toList ∨ (e.1, e.2.shape) ∈ Spec.torchShapes n) :
    ∀ st : List (ParamKey × Tensor ℝ) × Option (Tensor ℝ),
      (st.1.map fun e => (e.1, e.2.shape)).Perm (resnetShapes n) → ∃ st', l.foldlM convertStep st = some st' := by
  induction l with
  | nil => exact fun st _ => ⟨st, rfl⟩
  | cons e l ih =>
    intro st hst
    have ih := ih fun e he => hl e (List.mem_cons_of_mem _ he)
    rw [List.foldlM_cons]
    by_cases hm : e.1 = "mean".toList
    · rw [show convertStep st e = some (st.1, some e.2) by rw [convertStep, if_pos hm]]
      exact ih (st.1, some e.2) hst
    · obtain ⟨key, s', u, h1, h2, h3, h4⟩ := target_shape ((hl e (.head _)).resolve_left hm) e.2 rfl
      obtain ⟨⟨k, old⟩, ho, e'⟩ := List.mem_map.1 (hst.mem_iff.2 h2)
      obtain ⟨rfl, rfl⟩ := Prod.mk.inj e'
      have hn : (st.1.map Prod.fst).Nodup := by
        have := hst.map Prod.fst
        rw [List.map_map] at this
        exact this.nodup_iff.2 (keys_nodup n)
      have hg := dictGet_of_mem hn ho
      rw [show convertStep st e = some (dictSet st.1 k u, st.2) by
        rw [convertStep, if_neg hm, h1]
        simp only [Option.bind_eq_bind, Option.bind_some, hg, h3]
        rw [if_pos h4.symm]]
      refine ih (dictSet st.1 k u, st.2) ?_
      rw [shapes_set hn hg h4.symm]
      exact hst

/-- **C101 (acceptance).**  Every checkpoint with the names and shapes of the PyTorch network of the same width is
accepted, in whatever order its entries come. -/
theorem convertTorch_accepts (s : List ℕ) (hp : (params.map fun e => (e.1, e.2.shape)).Perm (resnetShapes n))
    (ht : (th.map fun e => (e.1, e.2.shape)).Perm (("mean".toList, s) :: Spec.torchShapes n)) :
    ∃ r, convertTorch params th = some r := by
  unfold convertTorch
  have e1 : params.length = 40 := by
    have := hp.length_eq
    rw [List.length_map] at this
    rw [this]; rfl
  have e2 : th.length = 41 := by
    have := ht.length_eq
    rw [List.length_map] at this
    rw [this]; rfl
  rw [if_pos (by omega)]
  refine loop_accepts th (fun e he => ?_) (params, none) hp
  rcases List.mem_cons.1 (ht.mem_iff.1 (List.mem_map_of_mem (f := fun e => (e.1, e.2.shape)) he)) with h | h
  · exact Or.inl (Prod.mk.inj h).1
  · exact Or.inr h

end Convert

/-- The hypotheses are met by every checkpoint of the network: here weights and biases given by any function of name
and index. -/
example (n : ℕ) (val : List Char → List ℕ → ℝ) (start : ParamKey → List ℕ → ℝ) :
    ∃ params' mean,
      convertTorch ((resnetShapes n).map fun e => (e.1, ⟨e.2, start e.1⟩))
        ((("mean".toList, [28, 28]) :: Spec.torchShapes n).map fun e => (e.1, ⟨e.2, val e.1⟩)) = some (params', mean) ∧
      ∀ x, resnetBinary (Spec.byName params') n 28 28 x = some (Spec.torchNet (Spec.byName
        ((("mean".toList, [28, 28]) :: Spec.torchShapes n).map fun e => (e.1, ⟨e.2, val e.1⟩))) n 28 28 x) := by
  have hp : (((resnetShapes n).map fun e => (e.1, (⟨e.2, start e.1⟩ : Tensor ℝ))).map fun e => (e.1, e.2.shape)).Perm
      (resnetShapes n) := by
    rw [List.map_map]
    exact List.Perm.of_eq (List.map_id _)
  have ht : (((("mean".toList, [28, 28]) :: Spec.torchShapes n).map fun e => (e.1, (⟨e.2, val e.1⟩ : Tensor ℝ))).map
      fun e => (e.1, e.2.shape)).Perm (("mean".toList, [28, 28]) :: Spec.torchShapes n) := by
    rw [List.map_map]
    exact List.Perm.of_eq (List.map_id _)
  obtain ⟨⟨params', mean⟩, h⟩ := convertTorch_accepts [28, 28] hp ht
  refine ⟨params', mean, h, fun x => resnet_converted hp ?_ h 28 28 (by norm_num) (by norm_num) x⟩
  rw [List.map_map]
  exact List.Perm.of_eq rfl

end Discs
