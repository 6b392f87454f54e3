import Mathlib.Analysis.SpecialFunctions.Sqrt
import Verif.Model.Learning

/-!
# Model of `discs/plot_results/plot.py`

Tiling of images into one picture.  A NumPy array is its shape and its entries in row-major order
(`reshape` keeps the entries); entries outside the shape are never read.
-/

namespace Discs

variable {V : Type*}

/-- Row-major entries of an array of shape `(·, s₁, s₂, s₃)`. -/
def flat4 (s₁ s₂ s₃ : ℕ) (f : ℕ → ℕ → ℕ → ℕ → V) (t : ℕ) : V :=
  f (t / (s₁ * s₂ * s₃)) (t / (s₂ * s₃) % s₁) (t / s₃ % s₂) (t % s₃)

/-- Row-major entries of an array of shape `(·, s₁, s₂, s₃, s₄)`. -/
def flat5 (s₁ s₂ s₃ s₄ : ℕ) (f : ℕ → ℕ → ℕ → ℕ → ℕ → V) (t : ℕ) : V :=
  f (t / (s₁ * s₂ * s₃ * s₄)) (t / (s₂ * s₃ * s₄) % s₁) (t / (s₃ * s₄) % s₂) (t / s₄ % s₃) (t % s₄)

/-- The array of shape `(·, s₁, s₂, s₃, s₄)` with the given entries. -/
def unflat5 (s₁ s₂ s₃ s₄ : ℕ) (g : ℕ → V) (i₀ i₁ i₂ i₃ i₄ : ℕ) : V :=
  g ((((i₀ * s₁ + i₁) * s₂ + i₂) * s₃ + i₃) * s₄ + i₄)

/-- The array of shape `(·, s₁, s₂)` with the given entries. -/
def unflat3 (s₁ s₂ : ℕ) (g : ℕ → V) (i₀ i₁ i₂ : ℕ) : V := g ((i₀ * s₁ + i₁) * s₂ + i₂)

/-- `np.pad` with a constant (`plot.py:43-48`): images of size `h × w` get `p` pixels on each side and
further images of padding are appended. -/
def padImgs (n h w p : ℕ) (padVal : V) (img : ℕ → ℕ → ℕ → ℕ → V) (i a b ch : ℕ) : V :=
  if i < n ∧ p ≤ a ∧ a < h + p ∧ p ≤ b ∧ b < w + p then img i (a - p) (b - p) ch else padVal

/-- Rows and columns of the grid (`plot.py:34-41`); `none` is the failing assertion.  `numCol = 0`
stands for `num_col <= 0`. -/
noncomputable def gridSize (n numCol : ℕ) : Option (ℕ × ℕ) :=
  if numCol = 0 then some (⌈Real.sqrt n⌉₊, ⌈Real.sqrt n⌉₊)
  else if n % numCol = 0 then some (⌈(n : ℝ) / numCol⌉₊, numCol) else none

/-- The picture: its height, its width and its pixels. -/
structure Picture (V : Type*) where
  height : ℕ
  width : ℕ
  pixel : ℕ → ℕ → ℕ → V

/-- `np_tile_imgs` (`plot.py:10-59`) on `n` images of size `h × w` with `c` channels; the checks on types and
ranges (lines 21-32) and the squeeze of a single channel (lines 57-58) are left out. -/
noncomputable def tileImgs (n h w c p numCol : ℕ) (padVal : V) (img : ℕ → ℕ → ℕ → ℕ → V) : Option (Picture V) :=
  (gridSize n numCol).map fun rc =>
    let H := h + 2 * p
    let W := w + 2 * p
    let e := flat4 H W c (padImgs n h w p padVal img)
    let x := unflat5 rc.2 H W c e
    let xt := fun i₀ i₁ i₂ i₃ i₄ => x i₀ i₂ i₁ i₃ i₄
    let y := unflat3 (rc.2 * W) c (flat5 H rc.2 W c xt)
    { height := rc.1 * H - 2 * p
      width := rc.2 * W - 2 * p
      pixel := fun r k ch => y (r + p) (k + p) ch }

/-- `plot_shareded_image` (`plot.py:62-73`) with one channel: `all_gather(…, tiled=True)` puts the rows of the
devices one after the other, the rows become images, values are multiplied by `rescale` and cast to
`uint8`, and at most `maxPlot` images are shown. -/
noncomputable def plotShards {dev per : ℕ} (rows : Fin dev → Fin per → ℕ → ℤ) (h w : ℕ) (rescale : ℤ) (maxPlot : ℕ) :
    Option (Picture ℤ) :=
  let N := dev * per
  let gathered : ℕ → ℕ → ℤ := fun i j => if hi : i < N then unshard rows ⟨i, hi⟩ j else 0
  tileImgs (min maxPlot N) h w 1 1 0 255 fun i a b _ => (gathered i (a * w + b) * rescale) % 256

end Discs
