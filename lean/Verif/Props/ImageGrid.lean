import Verif.Model.ImageGrid
import Verif.Props.Learning

/-!
# C94: the picture of the chains shows every image in its cell
-/

namespace Discs

section Index

variable {V : Type*}

private theorem div_mod_of {q s r : ℕ} (h : r < s) : (q * s + r) / s = q ∧ (q * s + r) % s = r := by
  have hs : 0 < s := by omega
  constructor
  · rw [Nat.add_comm, Nat.add_mul_div_right _ _ hs, Nat.div_eq_of_lt h, Nat.zero_add]
  · rw [Nat.add_comm, Nat.add_mul_mod_self_right, Nat.mod_eq_of_lt h]

theorem flat5_at (s₁ s₂ s₃ s₄ : ℕ) (f : ℕ → ℕ → ℕ → ℕ → ℕ → V) {i₀ i₁ i₂ i₃ i₄ : ℕ} (h₁ : i₁ < s₁) (h₂ : i₂ < s₂)
    (h₃ : i₃ < s₃) (h₄ : i₄ < s₄) :
    flat5 s₁ s₂ s₃ s₄ f ((((i₀ * s₁ + i₁) * s₂ + i₂) * s₃ + i₃) * s₄ + i₄) = f i₀ i₁ i₂ i₃ i₄ := by
  have d4 := div_mod_of (q := ((i₀ * s₁ + i₁) * s₂ + i₂) * s₃ + i₃) h₄
  have d3 := div_mod_of (q := (i₀ * s₁ + i₁) * s₂ + i₂) h₃
  have d2 := div_mod_of (q := i₀ * s₁ + i₁) h₂
  have d1 := div_mod_of (q := i₀) h₁
  unfold flat5
  rw [show s₁ * s₂ * s₃ * s₄ = s₄ * s₃ * s₂ * s₁ by ring, show s₂ * s₃ * s₄ = s₄ * s₃ * s₂ by ring,
    show s₃ * s₄ = s₄ * s₃ by ring, ← Nat.div_div_eq_div_mul, ← Nat.div_div_eq_div_mul,
    ← Nat.div_div_eq_div_mul, d4.1, d4.2, d3.1, d3.2, d2.1, d2.2, d1.1, d1.2]

theorem flat4_at (s₁ s₂ s₃ : ℕ) (f : ℕ → ℕ → ℕ → ℕ → V) {i₀ i₁ i₂ i₃ : ℕ} (h₁ : i₁ < s₁) (h₂ : i₂ < s₂)
    (h₃ : i₃ < s₃) : flat4 s₁ s₂ s₃ f (((i₀ * s₁ + i₁) * s₂ + i₂) * s₃ + i₃) = f i₀ i₁ i₂ i₃ := by
  have d3 := div_mod_of (q := (i₀ * s₁ + i₁) * s₂ + i₂) h₃
  have d2 := div_mod_of (q := i₀ * s₁ + i₁) h₂
  have d1 := div_mod_of (q := i₀) h₁
  unfold flat4
  rw [show s₁ * s₂ * s₃ = s₃ * s₂ * s₁ by ring, show s₂ * s₃ = s₃ * s₂ by ring,
    ← Nat.div_div_eq_div_mul, ← Nat.div_div_eq_div_mul, d3.1, d3.2, d2.1, d2.2, d1.1, d1.2]

end Index

variable {V : Type*}

/-- The entry of the padded picture in grid cell `(r, k)` at `(a, b)` of that cell. -/
private theorem tile_entry (n h w c p C : ℕ) (padVal : V) (img : ℕ → ℕ → ℕ → ℕ → V) {r k a b ch : ℕ} (hk : k < C)
    (ha : a < h + 2 * p) (hb : b < w + 2 * p) (hc : ch < c) :
    unflat3 (C * (w + 2 * p)) c (flat5 (h + 2 * p) C (w + 2 * p) c fun i₀ i₁ i₂ i₃ i₄ =>
      unflat5 C (h + 2 * p) (w + 2 * p) c (flat4 (h + 2 * p) (w + 2 * p) c (padImgs n h w p padVal img)) i₀ i₂ i₁ i₃ i₄)
      (r * (h + 2 * p) + a) (k * (w + 2 * p) + b) ch = padImgs n h w p padVal img (r * C + k) a b ch := by
  unfold unflat3
  rw [show ((r * (h + 2 * p) + a) * (C * (w + 2 * p)) + (k * (w + 2 * p) + b)) * c + ch
      = (((r * (h + 2 * p) + a) * C + k) * (w + 2 * p) + b) * c + ch by ring,
    flat5_at _ _ _ _ _ ha hk hb hc]
  unfold unflat5
  rw [flat4_at _ _ _ _ ha hb hc]

/-- The grid has room for all images. -/
theorem gridSize_room {n numCol R C : ℕ} (h : gridSize n numCol = some (R, C)) : n ≤ R * C := by
  unfold gridSize at h
  split_ifs at h with h0 h1
  · obtain ⟨rfl, rfl⟩ := Prod.mk.inj (Option.some.inj h)
    have h1 : Real.sqrt n ≤ ⌈Real.sqrt n⌉₊ := Nat.le_ceil _
    have h2 : (n : ℝ) ≤ (⌈Real.sqrt n⌉₊ * ⌈Real.sqrt n⌉₊ : ℕ) := by
      calc (n : ℝ) = Real.sqrt n * Real.sqrt n := (Real.mul_self_sqrt (Nat.cast_nonneg n)).symm
        _ ≤ ⌈Real.sqrt n⌉₊ * ⌈Real.sqrt n⌉₊ := mul_self_le_mul_self (Real.sqrt_nonneg _) h1
        _ = _ := by push_cast; ring
    exact_mod_cast h2
  · obtain ⟨rfl, rfl⟩ := Prod.mk.inj (Option.some.inj h)
    have hpos : (0 : ℝ) < numCol := by exact_mod_cast Nat.pos_of_ne_zero h0
    have h2 : (n : ℝ) ≤ (⌈(n : ℝ) / numCol⌉₊ * numCol : ℕ) := by
      push_cast
      rw [← div_le_iff₀ hpos]
      exact Nat.le_ceil _
    exact_mod_cast h2

/-- **C94.**  Image `i` fills the cell in row `i / C` and column `i % C` of the grid, cells are `2 p` pixels apart,
the picture ends with the last cell, and every other pixel of it has the padding value. -/
theorem tileImgs_cells (n h w c p numCol : ℕ) (padVal : V) (img : ℕ → ℕ → ℕ → ℕ → V) {R C : ℕ}
    (hg : gridSize n numCol = some (R, C)) :
    ∃ pic, tileImgs n h w c p numCol padVal img = some pic ∧
      pic.height = R * (h + 2 * p) - 2 * p ∧ pic.width = C * (w + 2 * p) - 2 * p ∧
      (∀ i < n, ∀ a < h, ∀ b < w, ∀ ch < c,
        i / C * (h + 2 * p) + a < pic.height ∧ i % C * (w + 2 * p) + b < pic.width ∧
        pic.pixel (i / C * (h + 2 * p) + a) (i % C * (w + 2 * p) + b) ch = img i a b ch) ∧
      ∀ y < pic.height, ∀ x < pic.width, ∀ ch < c,
        (¬ ∃ i < n, ∃ a < h, ∃ b < w, y = i / C * (h + 2 * p) + a ∧ x = i % C * (w + 2 * p) + b) →
        pic.pixel y x ch = padVal := by
  have hroom := gridSize_room hg
  refine ⟨_, by rw [tileImgs, hg]; rfl, rfl, rfl, fun i hi a ha b hb ch hch => ?_, fun y hy x hx ch hch hno => ?_⟩
  · have hC : 0 < C := by
      rcases Nat.eq_zero_or_pos C with h0 | h0
      · simp [h0] at hroom; omega
      · exact h0
    have hk : i % C < C := Nat.mod_lt _ hC
    have hr : i / C < R := (Nat.div_lt_iff_lt_mul hC).2 (by omega)
    have hr' : i / C * (h + 2 * p) + (h + 2 * p) ≤ R * (h + 2 * p) := by
      have := Nat.mul_le_mul_right (h + 2 * p) (Nat.succ_le_of_lt hr)
      rwa [Nat.succ_mul] at this
    have hk' : i % C * (w + 2 * p) + (w + 2 * p) ≤ C * (w + 2 * p) := by
      have := Nat.mul_le_mul_right (w + 2 * p) (Nat.succ_le_of_lt hk)
      rwa [Nat.succ_mul] at this
    refine ⟨by dsimp only; omega, by dsimp only; omega, ?_⟩
    dsimp only
    rw [show i / C * (h + 2 * p) + a + p = i / C * (h + 2 * p) + (a + p) by ring,
      show i % C * (w + 2 * p) + b + p = i % C * (w + 2 * p) + (b + p) by ring,
      tile_entry n h w c p C padVal img hk (by omega) (by omega) hch, Nat.div_add_mod', padImgs,
      if_pos ⟨hi, by omega, by omega, by omega, by omega⟩, Nat.add_sub_cancel, Nat.add_sub_cancel]
  · dsimp only at hy hx ⊢
    have hH : 0 < h + 2 * p := by
      rcases Nat.eq_zero_or_pos (h + 2 * p) with h0 | h0
      · rw [h0] at hy; simp at hy
      · exact h0
    have hW : 0 < w + 2 * p := by
      rcases Nat.eq_zero_or_pos (w + 2 * p) with h0 | h0
      · rw [h0] at hx; simp at hx
      · exact h0
    have hyR : (y + p) / (h + 2 * p) < R := (Nat.div_lt_iff_lt_mul hH).2 (by omega)
    have hxC : (x + p) / (w + 2 * p) < C := (Nat.div_lt_iff_lt_mul hW).2 (by omega)
    have ha := Nat.mod_lt (y + p) hH
    have hb := Nat.mod_lt (x + p) hW
    have ey := Nat.div_add_mod' (y + p) (h + 2 * p)
    have ex := Nat.div_add_mod' (x + p) (w + 2 * p)
    set r := (y + p) / (h + 2 * p)
    set k := (x + p) / (w + 2 * p)
    set a := (y + p) % (h + 2 * p)
    set b := (x + p) % (w + 2 * p)
    rw [← ey, ← ex, tile_entry n h w c p C padVal img hxC ha hb hch, padImgs, if_neg]
    rintro ⟨h1, h2, h3, h4, h5⟩
    have dm := div_mod_of (q := r) hxC
    refine hno ⟨r * C + k, h1, a - p, by omega, b - p, by omega, ?_, ?_⟩
    · rw [dm.1]; omega
    · rw [dm.2]; omega

/-- **C94 (overlap).**  Different pixels of the images have different places. -/
theorem tile_places_inj {C h w p i i' a a' b b' : ℕ} (ha : a < h) (ha' : a' < h) (hb : b < w) (hb' : b' < w)
    (hy : i / C * (h + 2 * p) + a = i' / C * (h + 2 * p) + a')
    (hx : i % C * (w + 2 * p) + b = i' % C * (w + 2 * p) + b') : i = i' ∧ a = a' ∧ b = b' := by
  have d1 := div_mod_of (q := i / C) (s := h + 2 * p) (r := a) (by omega)
  have d2 := div_mod_of (q := i' / C) (s := h + 2 * p) (r := a') (by omega)
  have e1 := div_mod_of (q := i % C) (s := w + 2 * p) (r := b) (by omega)
  have e2 := div_mod_of (q := i' % C) (s := w + 2 * p) (r := b') (by omega)
  rw [hy] at d1
  rw [hx] at e1
  have h1 : i / C = i' / C := d1.1.symm.trans d2.1
  have h2 : i % C = i' % C := e1.1.symm.trans e2.1
  refine ⟨?_, d1.2.symm.trans d2.2, e1.2.symm.trans e2.2⟩
  rw [← Nat.div_add_mod i C, ← Nat.div_add_mod i' C, h1, h2]

/-- **C94 (chains).**  The picture of the persistent chains shows chain `j` of device `d` in cell
`d * per + j`, for the first `maxPlot` chains, site `a * w + b` at pixel `(a, b)`: black for 0 and white
for 1 with the scale 255 that both trainers use. -/
theorem plotShards_chain {dev per : ℕ} (rows : Fin dev → Fin per → ℕ → ℤ) (h w maxPlot : ℕ)
    (hbin : ∀ d j s, rows d j s = 0 ∨ rows d j s = 1) :
    ∃ pic, plotShards rows h w 255 maxPlot = some pic ∧
      ∀ (d : Fin dev) (j : Fin per), d * per + j < maxPlot → ∀ a < h, ∀ b < w,
        let i := d * per + j
        let C := ⌈Real.sqrt (min maxPlot (dev * per) : ℕ)⌉₊
        pic.pixel (i / C * (h + 2) + a) (i % C * (w + 2) + b) 0 = if rows d j (a * w + b) = 1 then 255 else 0 := by
  obtain ⟨pic, hp, -, -, hcell, -⟩ := tileImgs_cells (min maxPlot (dev * per)) h w 1 1 0 (255 : ℤ)
    (fun i a b _ => ((if hi : i < dev * per then unshard rows ⟨i, hi⟩ (a * w + b) else 0) * 255) % 256)
    (R := ⌈Real.sqrt (min maxPlot (dev * per) : ℕ)⌉₊) (C := ⌈Real.sqrt (min maxPlot (dev * per) : ℕ)⌉₊) rfl
  refine ⟨pic, hp, fun d j hij a ha b hb => ?_⟩
  have hlt : (d : ℕ) * per + j < dev * per := by
    have := Nat.mul_le_mul_right per (Nat.succ_le_of_lt d.2)
    have hj := j.2
    rw [Nat.succ_mul] at this
    omega
  intro i C
  have := (hcell i (lt_min hij hlt) a ha b hb 0 one_pos).2.2
  rw [mul_one] at this
  rw [this, dif_pos hlt]
  have hrow : unshard rows ⟨i, hlt⟩ = rows d j := by
    have := shard_rows (unshard rows) d j ⟨i, hlt⟩ rfl
    rw [shard_unshard] at this
    exact this.symm
  rw [hrow]
  rcases hbin d j (a * w + b) with h0 | h0 <;> simp [h0]

/-- A grid of 2 × 2 for three images. -/
example : gridSize 3 0 = some (2, 2) := by
  have h : ⌈Real.sqrt ((3 : ℕ) : ℝ)⌉₊ = 2 := by
    rw [Nat.ceil_eq_iff (by norm_num)]
    constructor
    · rw [show ((2 - 1 : ℕ) : ℝ) = Real.sqrt 1 by norm_num]
      exact Real.sqrt_lt_sqrt (by norm_num) (by norm_num)
    · rw [Real.sqrt_le_left (by norm_num)]
      norm_num
  rw [gridSize, if_pos rfl, h]

end Discs
