import Mathlib.Data.Real.Basic
import Mathlib.Data.List.OfFn
import Mathlib.Logic.Equiv.Defs

/-!
# Model of `discs/learning/raw_torch_dataset.py`

Image data sets for the training of energy-based models.  A data set is the list of its images, an image is its
pixel values in row-major order.  Reading and downloading of files is left out: their contents are the
arguments.  Labels, which are computed and dropped, are left out.  `np.random.shuffle` is a permutation for every
length; `np.random.binomial(1, p)` is `1` if its uniform draw is below `p`.
-/

namespace Discs

/-- An image: pixel values in row-major order. -/
abbrev Pixels := ℕ → ℝ

/-- The contents of the files of one data set. -/
structure RawFiles where
  train : List Pixels
  val : List Pixels
  test : List Pixels

/-- The random draws: a permutation for every shuffle, a uniform number for every pixel that is binarised. -/
structure RawDraws where
  first : ∀ n, Equiv.Perm (Fin n)
  second : ∀ n, Equiv.Perm (Fin n)
  last : ∀ n, Equiv.Perm (Fin n)
  valU : ℕ → ℕ → ℝ
  testU : ℕ → ℕ → ℝ

/-- `np.random.shuffle`. -/
def shuffleRows {α : Type*} (σ : ∀ n, Equiv.Perm (Fin n)) (l : List α) : List α :=
  List.ofFn fun i : Fin l.length => l.get (σ l.length i)

/-- `np.random.binomial(1, x)` on a whole array. -/
noncomputable def binomialRows (u : ℕ → ℕ → ℝ) (l : List Pixels) : List Pixels :=
  l.mapIdx fun i x j => if u i j < x j then 1 else 0

/-- Python's `l[:-n]`. -/
def dropTail {α : Type*} (l : List α) (n : ℕ) : List α := if n = 0 then [] else l.take (l.length - n)

/-- Python's `l[-n:]`. -/
def takeTail {α : Type*} (l : List α) (n : ℕ) : List α := if n = 0 then l else l.drop (l.length - n)

/-- `data.reshape((-1, s, s)).reshape((-1, s * s), order='F')` (`raw_torch_dataset.py:97-98, 132-133`) on an array
of `N` rows: entry `(i, j)` of the result is entry number `i + N * j` when the first index runs fastest, that is the
entry `(t % N, t / N % s, t / N / s)` of the cube, which is entry `a * s + b` of row `i`. -/
def reshapeF (N s : ℕ) (data : ℕ → Pixels) (i j : ℕ) : ℝ :=
  let t := i + N * j
  data (t % N) ((t / N % s) * s + t / N / s)

/-- `reshape_data` on a list of images of size `s × s`. -/
def reshapeData (s : ℕ) (l : List Pixels) : List Pixels :=
  (List.range l.length).map fun i => reshapeF l.length s (fun k => l.getD k fun _ => 0) i

/-- `load_static_mnist` (`raw_torch_dataset.py:15-35`). -/
def loadStatic (f : RawFiles) : List Pixels × List Pixels × List Pixels := (f.train, f.val, f.test)

/-- `load_dynamic_mnist` (`raw_torch_dataset.py:38-85`); the file's bytes are divided by 255. -/
noncomputable def loadDynamic (f : RawFiles) (d : RawDraws) : List Pixels × List Pixels × List Pixels :=
  let xTrain := f.train.map fun x j => x j / 255
  let xTest := f.test.map fun x j => x j / 255
  let xVal := (xTrain.take 60000).drop 50000
  (xTrain.take 50000, binomialRows d.valU xVal, binomialRows d.testU xTest)

/-- `load_omniglot` (`raw_torch_dataset.py:88-120`). -/
noncomputable def loadOmniglot (f : RawFiles) (d : RawDraws) (nValidation : ℕ) :
    List Pixels × List Pixels × List Pixels :=
  let trainData := shuffleRows d.first (reshapeData 28 f.train)
  (dropTail trainData nValidation, binomialRows d.valU (takeTail trainData nValidation),
    binomialRows d.testU (reshapeData 28 f.test))

/-- `load_caltech101silhouettes` (`raw_torch_dataset.py:123-143`). -/
def loadCaltech (f : RawFiles) (d : RawDraws) : List Pixels × List Pixels × List Pixels :=
  let inv : List Pixels → List Pixels := fun l => (reshapeData 28 l).map fun x j => 1 - x j
  (shuffleRows d.first (inv f.train), shuffleRows d.second (inv f.val), inv f.test)

/-- `load_histopathologyGray` (`raw_torch_dataset.py:146-166`). -/
noncomputable def loadHisto (f : RawFiles) : List Pixels × List Pixels × List Pixels :=
  let clip : List Pixels → List Pixels := fun l => l.map fun x j => min (max (x j) (1 / 512)) (1 - 1 / 512)
  (clip f.train, clip f.val, clip f.test)

/-- `load_freyfaces` (`raw_torch_dataset.py:169-195`); there is one file, `f.train`. -/
noncomputable def loadFrey (f : RawFiles) (d : RawDraws) (tr va te : ℕ) : List Pixels × List Pixels × List Pixels :=
  let data := shuffleRows d.first (f.train.map fun x j => x j / 256)
  (data.take tr, (data.take (tr + va)).drop tr, (data.take (tr + va + te)).drop (tr + va))

/-- `load_raw_dataset` (`raw_torch_dataset.py:198-216`); `none` is the `ValueError`. -/
noncomputable def loadRaw (name : String) (f : RawFiles) (d : RawDraws) :
    Option (List Pixels × List Pixels × List Pixels) :=
  let r :=
    if name = "static_mnist" then some (loadStatic f)
    else if name = "dynamic_mnist" then some (loadDynamic f d)
    else if name = "omniglot" then some (loadOmniglot f d 1345)
    else if name = "caltech" then some (loadCaltech f d)
    else if name = "histopathology" then some (loadHisto f)
    else if name = "freyfaces" then some (loadFrey f d 1565 200 200)
    else none
  r.map fun x => (shuffleRows d.last x.1, x.2)

end Discs
