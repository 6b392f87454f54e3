import Verif.Model.LocallyBalanced
import Mathlib.Tactic.Linarith

/-!
# C59: the number of sites of an adaptive step is the rounded radius
-/

namespace Discs

/-- **C59 (rounding).** For a radius in its legal range the number of flips is the nearest integer, the even one if two are
nearest; no clipping takes place. -/
theorem numFlips_nearest {dim : ℕ} {r : ℝ} (h1 : 1 ≤ r) (h2 : r ≤ dim) (n : ℕ) :
    numFlips dim r = n ↔ |(n : ℝ) - r| ≤ 1 / 2 ∧ (|(n : ℝ) - r| = 1 / 2 → Even n) := by
  have key : |(numFlips dim r : ℝ) - r| ≤ 1 / 2 ∧ (|(numFlips dim r : ℝ) - r| = 1 / 2 → Even (numFlips dim r)) := by
    have f1 := Int.floor_le r
    have f2 := Int.lt_floor_add_one r
    have g1 : 1 ≤ ⌊r⌋ := Int.le_floor.2 (by exact_mod_cast h1)
    have g2 : ⌊r⌋ ≤ (dim : ℤ) := by
      have : (⌊r⌋ : ℝ) ≤ dim := f1.trans h2
      exact_mod_cast this
    have g3 : 1 / 2 ≤ r - ⌊r⌋ → ⌊r⌋ + 1 ≤ (dim : ℤ) := by
      intro h
      have : (⌊r⌋ : ℝ) < dim := by linarith
      have : ⌊r⌋ < (dim : ℤ) := by exact_mod_cast this
      omega
    have cast : ∀ z : ℤ, 1 ≤ z → z ≤ dim → (((min (max z 1) (dim : ℤ)).toNat : ℕ) : ℤ) = z := by omega
    have castR : ∀ z : ℤ, 1 ≤ z → z ≤ dim → (((min (max z 1) (dim : ℤ)).toNat : ℕ) : ℝ) = z := by
      intro z h h'
      have := cast z h h'
      exact_mod_cast congrArg (Int.cast : ℤ → ℝ) this
    have ev : ∀ z : ℤ, 1 ≤ z → z ≤ dim → z % 2 = 0 → Even (min (max z 1) (dim : ℤ)).toNat := by
      intro z h h' h2
      have := cast z h h'
      rw [Nat.even_iff]; omega
    unfold numFlips roundHalfEven
    simp only
    split_ifs with a b c
    · rw [castR _ g1 g2]
      have : |(⌊r⌋ : ℝ) - r| < 1 / 2 := by rw [abs_lt]; constructor <;> linarith
      exact ⟨this.le, fun h => absurd h this.ne⟩
    · rw [castR _ (by omega) (g3 (by linarith))]
      have : |((⌊r⌋ + 1 : ℤ) : ℝ) - r| < 1 / 2 := by rw [abs_lt]; push_cast; constructor <;> linarith
      exact ⟨this.le, fun h => absurd h this.ne⟩
    · rw [castR _ g1 g2]
      exact ⟨by rw [abs_le]; constructor <;> linarith, fun _ => ev _ g1 g2 c⟩
    · rw [castR _ (by omega) (g3 (by linarith))]
      exact ⟨by rw [abs_le]; push_cast; constructor <;> linarith, fun _ => ev _ (by omega) (g3 (by linarith)) (by omega)⟩
  constructor
  · rintro rfl; exact key
  · rintro ⟨k1, k2⟩
    set m := numFlips dim r
    obtain ⟨m1, m2⟩ := key
    by_contra hne
    rw [abs_le] at k1 m1
    rcases lt_or_gt_of_ne hne with h | h
    · have hc : (m : ℝ) + 1 ≤ n := by exact_mod_cast h
      have e1 : (n : ℝ) - r = 1 / 2 := by linarith
      have e2 : (m : ℝ) - r = -(1 / 2) := by linarith
      have a := k2 (by rw [e1]; norm_num)
      have b := m2 (by rw [e2]; norm_num)
      have : (n : ℝ) = m + 1 := by linarith
      have : n = m + 1 := by exact_mod_cast this
      rw [this] at a
      exact (Nat.even_add_one.1 a) b
    · have hc : (n : ℝ) + 1 ≤ m := by exact_mod_cast h
      have e1 : (m : ℝ) - r = 1 / 2 := by linarith
      have e2 : (n : ℝ) - r = -(1 / 2) := by linarith
      have a := m2 (by rw [e1]; norm_num)
      have b := k2 (by rw [e2]; norm_num)
      have : (m : ℝ) = n + 1 := by linarith
      have : m = n + 1 := by exact_mod_cast this
      rw [this] at a
      exact (Nat.even_add_one.1 a) b

/-- Outside the legal range the number is clipped. -/
theorem numFlips_clipped {dim : ℕ} (hd : 0 < dim) (r : ℝ) : 1 ≤ numFlips dim r ∧ numFlips dim r ≤ dim := by
  unfold numFlips; omega

/-- A tie: of 2 and 3 the even number. -/
example : numFlips 3 (5 / 2) = 2 := (numFlips_nearest (by norm_num) (by norm_num) 2).2
  ⟨by norm_num [abs_of_neg], fun _ => by decide⟩

/-- A tie whose even neighbour is the larger one. -/
example : numFlips 5 (7 / 2) = 4 := (numFlips_nearest (by norm_num) (by norm_num) 4).2
  ⟨by norm_num [abs_of_pos], fun _ => by decide⟩

end Discs
