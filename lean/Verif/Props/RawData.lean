import Verif.Model.RawData
import Mathlib.Data.List.Perm.Basic
import Mathlib.Data.Fintype.EquivFin
import Mathlib.Tactic.NormNum
import Mathlib.Tactic.Linarith
import Mathlib.Data.List.FinRange

/-!
# C95: the image data sets
-/

namespace Discs

namespace Spec

/-- All pixels are 0 or 1. -/
def BinaryImages (l : List Pixels) : Prop := ∀ x ∈ l, ∀ j, x j = 0 ∨ x j = 1

/-- The image with its two axes exchanged. -/
def transposed (s : ℕ) (x : Pixels) : Pixels := fun j => x (j % s * s + j / s)

/-- `bits` are binary images drawn from the grey images `grey`: one for each, and a pixel that is certainly off (on) is
off (on). -/
def DrawnFrom (bits grey : List Pixels) : Prop :=
  BinaryImages bits ∧ List.Forall₂ (fun b x => ∀ j, (x j = 0 → b j = 0) ∧ (x j = 1 → b j = 1)) bits grey

end Spec

open Spec

theorem shuffleRows_perm {α : Type*} (σ : ∀ n, Equiv.Perm (Fin n)) (l : List α) : (shuffleRows σ l).Perm l := by
  unfold shuffleRows
  have h := Equiv.Perm.ofFn_comp_perm (σ l.length) (fun i => l.get i)
  rw [show (fun i : Fin l.length => l.get (σ l.length i)) = (fun i => l.get i) ∘ (σ l.length) from rfl]
  refine h.trans ?_
  rw [List.ofFn_get]

/-- **C95 (axes).**  The reshape in Fortran order exchanges the axes of every image and mixes no images. -/
theorem reshapeData_transposed (s : ℕ) (l : List Pixels) : reshapeData s l = l.map (Spec.transposed s) := by
  refine List.ext_getElem (by simp [reshapeData]) fun i h1 h2 => ?_
  have hi : i < l.length := by simpa [reshapeData] using h1
  simp only [reshapeData, List.getElem_map, List.getElem_range]
  funext j
  unfold reshapeF Spec.transposed
  dsimp only
  have hN : 0 < l.length := by omega
  rw [Nat.add_mul_mod_self_left, Nat.mod_eq_of_lt hi, Nat.add_mul_div_left _ _ hN, Nat.div_eq_of_lt hi, Nat.zero_add,
    List.getD_eq_getElem?_getD, List.getElem?_eq_getElem hi, Option.getD_some]

/-- Exchanging the axes twice gives the image back. -/
theorem transposed_at (s : ℕ) (x : Pixels) {a b : ℕ} (ha : a < s) : Spec.transposed s x (b * s + a) = x (a * s + b) := by
  have hs : 0 < s := by omega
  unfold Spec.transposed
  rw [Nat.add_comm (b * s), Nat.add_mul_mod_self_right, Nat.mod_eq_of_lt ha, Nat.add_mul_div_right _ _ hs,
    Nat.div_eq_of_lt ha, Nat.zero_add]

/-- Binarised images are binary and keep the pixels that are certain. -/
theorem binomialRows_drawn (u : ℕ → ℕ → ℝ) (l : List Pixels) (hu : ∀ i j, 0 ≤ u i j ∧ u i j < 1) :
    Spec.DrawnFrom (binomialRows u l) l := by
  constructor
  · intro x hx j
    obtain ⟨i, hi, rfl⟩ := List.mem_mapIdx.1 hx
    dsimp only
    split_ifs <;> simp
  · rw [List.forall₂_iff_get]
    refine ⟨by simp [binomialRows], fun i h1 h2 j => ?_⟩
    simp only [binomialRows, List.get_eq_getElem, List.getElem_mapIdx]
    constructor
    · intro h
      rw [h, if_neg (not_lt.2 (hu i j).1)]
    · intro h
      rw [h, if_pos (hu i j).2]

theorem dropTail_append {α : Type*} (l : List α) {n : ℕ} (hn : n ≠ 0) : dropTail l n ++ takeTail l n = l := by
  rw [dropTail, takeTail, if_neg hn, if_neg hn, List.take_append_drop]

/-- **C95 (static MNIST).**  The files are used as they are; training images in some order. -/
theorem load_static (f : RawFiles) (d : RawDraws) :
    ∃ tr, loadRaw "static_mnist" f d = some (tr, f.val, f.test) ∧ tr.Perm f.train :=
  ⟨_, rfl, shuffleRows_perm _ _⟩

/-- **C95 (dynamic MNIST).**  With the 60000 images of the file, training and validation images together are the
images of the file, each once; validation and test images are drawn from them, training images stay grey. -/
theorem load_dynamic (f : RawFiles) (d : RawDraws) (hlen : f.train.length ≤ 60000)
    (hv : ∀ i j, 0 ≤ d.valU i j ∧ d.valU i j < 1) (ht : ∀ i j, 0 ≤ d.testU i j ∧ d.testU i j < 1) :
    ∃ tr va te grey, loadRaw "dynamic_mnist" f d = some (tr, va, te) ∧
      (tr ++ grey).Perm (f.train.map fun x j => x j / 255) ∧ tr.length = min 50000 f.train.length ∧
      Spec.DrawnFrom va grey ∧ Spec.DrawnFrom te (f.test.map fun x j => x j / 255) := by
  refine ⟨_, _, _, _, rfl, ?_, ?_, binomialRows_drawn _ _ hv, binomialRows_drawn _ _ ht⟩
  · refine ((shuffleRows_perm _ _).append_right _).trans ?_
    dsimp only [loadDynamic]
    rw [List.take_of_length_le (i := 60000) (by simpa using hlen), List.take_append_drop]
  · rw [(shuffleRows_perm _ _).length_eq]
    dsimp only [loadDynamic]
    rw [List.length_take, List.length_map]

/-- **C95 (Omniglot).**  Training and validation images together are the images of the file with their axes
exchanged, each once; validation and test images are drawn from them, training images stay grey. -/
theorem load_omniglot (f : RawFiles) (d : RawDraws)
    (hv : ∀ i j, 0 ≤ d.valU i j ∧ d.valU i j < 1) (ht : ∀ i j, 0 ≤ d.testU i j ∧ d.testU i j < 1) :
    ∃ tr va te grey, loadRaw "omniglot" f d = some (tr, va, te) ∧
      (tr ++ grey).Perm (f.train.map (Spec.transposed 28)) ∧ va.length = min 1345 f.train.length ∧
      Spec.DrawnFrom va grey ∧ Spec.DrawnFrom te (f.test.map (Spec.transposed 28)) := by
  refine ⟨_, _, _, takeTail (shuffleRows d.first (reshapeData 28 f.train)) 1345, rfl, ?_, ?_,
    binomialRows_drawn _ _ hv, ?_⟩
  · refine ((shuffleRows_perm _ _).append_right _).trans ?_
    dsimp only [loadOmniglot]
    rw [dropTail_append _ (by norm_num)]
    refine (shuffleRows_perm _ _).trans ?_
    rw [reshapeData_transposed]
  · have : (shuffleRows d.first (reshapeData 28 f.train)).length = f.train.length := by
      rw [(shuffleRows_perm _ _).length_eq, reshapeData_transposed, List.length_map]
    simp only [binomialRows, List.length_mapIdx, takeTail]
    rw [if_neg (by norm_num), List.length_drop, this]
    omega
  · rw [← reshapeData_transposed]
    exact binomialRows_drawn _ _ ht

/-- **C95 (Omniglot without validation, refuted).**  With `n_validation = 0` there are no training images and all
images are validation images. -/
theorem load_omniglot_zero (f : RawFiles) (d : RawDraws) :
    (loadOmniglot f d 0).1 = [] ∧ (loadOmniglot f d 0).2.1.length = f.train.length := by
  constructor
  · simp [loadOmniglot, dropTail]
  · simp only [loadOmniglot, binomialRows, List.length_mapIdx, takeTail, if_pos]
    rw [(shuffleRows_perm _ _).length_eq, reshapeData_transposed, List.length_map]

/-- **C95 (Caltech).**  All three sets hold the images of their file with axes and colours exchanged; binary files
give binary images. -/
theorem load_caltech (f : RawFiles) (d : RawDraws) :
    ∃ tr va te, loadRaw "caltech" f d = some (tr, va, te) ∧
      tr.Perm (f.train.map fun x j => 1 - Spec.transposed 28 x j) ∧
      va.Perm (f.val.map fun x j => 1 - Spec.transposed 28 x j) ∧
      te = f.test.map (fun x j => 1 - Spec.transposed 28 x j) ∧
      (Spec.BinaryImages f.train → Spec.BinaryImages tr) := by
  have hinv : ∀ l : List Pixels, (reshapeData 28 l).map (fun x j => 1 - x j)
      = l.map fun x j => 1 - Spec.transposed 28 x j := by
    intro l
    rw [reshapeData_transposed, List.map_map]
    rfl
  have h1 : (shuffleRows d.last (shuffleRows d.first ((reshapeData 28 f.train).map fun x j => 1 - x j))).Perm
      (f.train.map fun x j => 1 - Spec.transposed 28 x j) := by
    refine (shuffleRows_perm _ _).trans ((shuffleRows_perm _ _).trans ?_)
    rw [hinv]
  refine ⟨_, _, _, rfl, h1, ?_, hinv _, fun hb x hx j => ?_⟩
  · exact (shuffleRows_perm _ _).trans (List.Perm.of_eq (hinv _))
  · obtain ⟨y, hy, rfl⟩ := List.mem_map.1 (h1.mem_iff.1 hx)
    rcases hb y hy (j % 28 * 28 + j / 28) with h | h <;> simp [Spec.transposed, h]

/-- **C95 (Frey faces).**  The three sets are disjoint parts of the file: with `1565 + 200 + 200` images together the
whole file. -/
theorem load_frey (f : RawFiles) (d : RawDraws) (hlen : f.train.length ≤ 1965) :
    ∃ tr va te, loadRaw "freyfaces" f d = some (tr, va, te) ∧
      (tr ++ (va ++ te)).Perm (f.train.map fun x j => x j / 256) := by
  refine ⟨_, _, _, rfl, ?_⟩
  refine ((shuffleRows_perm _ _).append_right _).trans ?_
  dsimp only [loadFrey]
  refine List.Perm.trans (List.Perm.of_eq ?_) (shuffleRows_perm d.first _)
  set data := shuffleRows d.first (f.train.map fun x j => x j / 256)
  have hd : data.length ≤ 1965 := by
    rw [(shuffleRows_perm _ _).length_eq, List.length_map]
    exact hlen
  rw [List.take_of_length_le (i := 1565 + 200 + 200) hd]
  rw [List.drop_take, show 1565 + 200 - 1565 = 200 from rfl, ← List.drop_drop, List.take_append_drop,
    List.take_append_drop]

/-- **C95 (histopathology).**  Values are at least 1/512 away from 0 and 1, other values are kept. -/
theorem load_histo (f : RawFiles) (d : RawDraws) :
    ∃ tr va te, loadRaw "histopathology" f d = some (tr, va, te) ∧ tr.length = f.train.length ∧
      (∀ x ∈ tr, ∀ j, 1 / 512 ≤ x j ∧ x j ≤ 1 - 1 / 512) ∧
      ∀ x ∈ f.train, (∀ j, 1 / 512 ≤ x j ∧ x j ≤ 1 - 1 / 512) → x ∈ tr := by
  refine ⟨_, _, _, rfl, ?_, fun x hx j => ?_, fun x hx h => ?_⟩
  · rw [(shuffleRows_perm _ _).length_eq]
    simp [loadHisto]
  · obtain ⟨y, -, rfl⟩ := List.mem_map.1 ((shuffleRows_perm _ _).mem_iff.1 hx)
    exact ⟨le_min (le_max_right _ _) (by norm_num), min_le_right _ _⟩
  · refine (shuffleRows_perm _ _).mem_iff.2 (List.mem_map.2 ⟨x, hx, funext fun j => ?_⟩)
    rw [max_eq_left (h j).1, min_eq_left (h j).2]

/-- **C95 (unknown names).** -/
theorem load_unknown (name : String) (f : RawFiles) (d : RawDraws) :
    loadRaw name f d = none ↔ name ∉ ["static_mnist", "dynamic_mnist", "omniglot", "caltech", "histopathology",
      "freyfaces"] := by
  unfold loadRaw
  split_ifs with h1 h2 h3 h4 h5 h6 <;> simp_all

/-- **C95 (binary training data, refuted).**  `dynamic_mnist` is declared binary, but its training images are those
of the file: they are binary only if the file is. -/
theorem load_dynamic_train (f : RawFiles) (d : RawDraws) {tr va te : List Pixels}
    (h : loadRaw "dynamic_mnist" f d = some (tr, va, te)) :
    Spec.BinaryImages tr ↔ ∀ x ∈ f.train.take 50000, ∀ j, x j = 0 ∨ x j = 255 := by
  have htr : tr.Perm ((f.train.take 50000).map fun x j => x j / 255) := by
    have : tr = shuffleRows d.last ((f.train.map fun x j => x j / 255).take 50000) :=
      (congrArg Prod.fst (Option.some.inj h)).symm
    rw [this, ← List.map_take]
    exact shuffleRows_perm _ _
  constructor
  · intro hb x hx j
    rcases hb _ (htr.mem_iff.2 (List.mem_map_of_mem hx)) j with h0 | h0
    · exact Or.inl (by linarith)
    · exact Or.inr (by linarith)
  · intro hb x hx j
    obtain ⟨y, hy, rfl⟩ := List.mem_map.1 (htr.mem_iff.1 hx)
    rcases hb y hy j with h0 | h0 <;> simp [h0]

/-- The same for `omniglot`: with more than 1345 images, all of them with a grey pixel, no training image is
binary. -/
theorem load_omniglot_train (f : RawFiles) (d : RawDraws) {tr va te : List Pixels}
    (h : loadRaw "omniglot" f d = some (tr, va, te)) (hlen : 1345 < f.train.length)
    (hgrey : ∀ x ∈ f.train, ∃ a < 28, ∃ b < 28, x (a * 28 + b) ≠ 0 ∧ x (a * 28 + b) ≠ 1) :
    ¬ Spec.BinaryImages tr := by
  have e : tr = shuffleRows d.last (dropTail (shuffleRows d.first (reshapeData 28 f.train)) 1345) := by
    have hr : loadRaw "omniglot" f d = some (shuffleRows d.last (loadOmniglot f d 1345).1, (loadOmniglot f d 1345).2) :=
      rfl
    rw [hr] at h
    rw [← (Prod.mk.inj (Option.some.inj h)).1, loadOmniglot]
  have hl : (shuffleRows d.first (reshapeData 28 f.train)).length = f.train.length := by
    rw [(shuffleRows_perm _ _).length_eq, reshapeData_transposed, List.length_map]
  have hpos : 0 < tr.length := by
    rw [e, (shuffleRows_perm _ _).length_eq, dropTail, if_neg (by norm_num), List.length_take, hl]
    omega
  intro hb
  have hm : tr[0] ∈ tr := List.getElem_mem hpos
  have hm' : tr[0] ∈ f.train.map (Spec.transposed 28) := by
    have h1 : ∀ x ∈ tr, x ∈ shuffleRows d.first (reshapeData 28 f.train) := by
      intro x hx
      rw [e] at hx
      have := (shuffleRows_perm _ _).mem_iff.1 hx
      rw [dropTail, if_neg (by norm_num)] at this
      exact List.mem_of_mem_take this
    have := (shuffleRows_perm _ _).mem_iff.1 (h1 _ hm)
    rwa [reshapeData_transposed] at this
  obtain ⟨y, hy, hyt⟩ := List.mem_map.1 hm'
  obtain ⟨a, ha, b, -, h0, h1⟩ := hgrey y hy
  rcases hb _ hm (b * 28 + a) with hz | hz
  · rw [← hyt, transposed_at 28 y ha] at hz
    exact h0 hz
  · rw [← hyt, transposed_at 28 y ha] at hz
    exact h1 hz

/-- A file of 1346 grey images meets the hypotheses. -/
example (d : RawDraws) {tr va te : List Pixels}
    (h : loadRaw "omniglot" ⟨List.replicate 1346 fun _ => 1 / 2, [], []⟩ d = some (tr, va, te)) :
    ¬ Spec.BinaryImages tr := by
  refine load_omniglot_train _ d h (by dsimp only; rw [List.length_replicate]; norm_num) fun x hx => ⟨0, by norm_num, 0, by norm_num, ?_⟩
  rw [List.eq_of_mem_replicate hx]
  norm_num

/-- A grey file of one image. -/
example (d : RawDraws) : ∃ tr va te, loadRaw "dynamic_mnist" ⟨[fun _ => 100], [], []⟩ d = some (tr, va, te) ∧
    ¬ Spec.BinaryImages tr := by
  refine ⟨_, _, _, rfl, ?_⟩
  rw [load_dynamic_train ⟨[fun _ => 100], [], []⟩ d rfl]
  intro h
  have := h (fun _ => 100) (by simp) 0
  norm_num at this

end Discs
