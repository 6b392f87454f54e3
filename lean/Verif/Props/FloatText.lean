import Verif.Spec.JobLabels
import Verif.Model.ShippedFiles
import Mathlib.Data.Nat.Digits.Defs
import Mathlib.Data.Rat.Floor
import Mathlib.Tactic.FieldSimp
import Mathlib.Tactic.Linarith
import Mathlib.Tactic.Ring

/-!
# The text of a swept float says its value (C96)
-/

namespace Discs

/-- The value of digits after the point. -/
def Spec.fracValue : List Char → ℚ
  | [] => 0
  | c :: l => ((c.toNat - '0'.toNat : ℕ) + fracValue l) / 10

open Spec

private theorem digit_value : ∀ d < 10, (Nat.digitChar d).toNat - '0'.toNat = d ∧ (Nat.digitChar d).isDigit = true := by
  decide

theorem decimals_value : ∀ (f : ℕ) (q : ℚ), 0 ≤ q → q < 1 → (∃ m : ℤ, q * 10 ^ f = m) →
    fracValue (decimals f q) = q ∧ ∀ c ∈ decimals f q, c.isDigit = true
  | 0, q, h0, h1, ⟨m, hm⟩ => by
    rw [pow_zero, mul_one] at hm
    have : m = 0 := by
      rw [hm] at h0 h1
      have a : (0 : ℤ) ≤ m := by exact_mod_cast h0
      have b : m < 1 := by exact_mod_cast h1
      omega
    rw [hm, this]
    simp [decimals, fracValue]
  | f + 1, q, h0, h1, ⟨m, hm⟩ => by
    rw [decimals]
    split_ifs with hq
    · simp [fracValue, hq]
    · have hf0 : 0 ≤ (q * 10).floor := Rat.le_floor_iff.2 (by push_cast; linarith)
      have hf : (q * 10).floor < 10 := Rat.floor_lt_iff.2 (by push_cast; linarith)
      obtain ⟨n, hn⟩ := Int.eq_ofNat_of_zero_le hf0
      have hn10 : n < 10 := by omega
      have l1 : ((q * 10).floor : ℚ) ≤ q * 10 := Rat.floor_le _
      have l2 : q * 10 < (q * 10).floor + 1 := by exact_mod_cast Rat.lt_floor_add_one (q * 10)
      obtain ⟨h2, h3⟩ := decimals_value f (q * 10 - (q * 10).floor) (by linarith) (by linarith)
        ⟨m - (q * 10).floor * 10 ^ f, by push_cast; rw [← hm]; ring⟩
      rw [hn] at h2 h3 ⊢
      simp only [Int.toNat_natCast, Int.cast_natCast] at h2 h3 ⊢
      constructor
      · rw [fracValue, h2, (digit_value n hn10).1]
        ring
      · intro c hc
        rcases List.mem_cons.1 hc with rfl | hc
        · exact (digit_value n hn10).2
        · exact h3 c hc

/-- The text of a number that is not negative: its integer part and, unless it is left out, its fraction. -/
theorem decimalText_value (b : Bool) {q : ℚ} (h0 : 0 ≤ q) (h : ∃ m : ℤ, q * 10 ^ 17 = m) :
    ∃ (n : ℕ) (ds : List Char), decimalText b q = Nat.toDigits 10 n ++ (if ds = [] then [] else '.' :: ds) ∧
      (∀ c ∈ ds, c.isDigit = true) ∧ n + fracValue ds = q ∧ (b = true → ds ≠ []) := by
  have hf0 : 0 ≤ q.floor := Rat.le_floor_iff.2 (by simpa using h0)
  obtain ⟨n, hn⟩ := Int.eq_ofNat_of_zero_le hf0
  have hn' : q.floor.toNat = n := by rw [hn]; rfl
  have hc : (q.floor : ℚ) = n := by rw [hn]; rfl
  unfold decimalText
  rw [hn', hc]
  by_cases hq : q = n
  · rw [if_pos hq]
    cases b
    · exact ⟨n, [], by simp, by simp, by simp [fracValue, hq.symm], by simp⟩
    · exact ⟨n, ['0'], by simp, by decide, by simp [fracValue, hq.symm], by simp⟩
  · rw [if_neg hq]
    have l1 : (q.floor : ℚ) ≤ q := Rat.floor_le _
    have l2 : q < q.floor + 1 := by exact_mod_cast Rat.lt_floor_add_one q
    rw [hc] at l1 l2
    obtain ⟨m, hm⟩ := h
    obtain ⟨h2, h3⟩ := decimals_value 17 (q - n) (by linarith) (by linarith)
      ⟨m - n * 10 ^ 17, by push_cast; rw [← hm]; ring⟩
    have hne : decimals 17 (q - n) ≠ [] := by
      intro e
      rw [e, fracValue] at h2
      exact hq (by linarith)
    exact ⟨n, decimals 17 (q - n), by rw [if_neg hne], h3, by rw [h2]; ring, fun _ => hne⟩

theorem leadingZeros_value : ∀ (f : ℕ) (q : ℚ), 1 ≤ q * 10 ^ f → q < 10 →
    1 ≤ q * 10 ^ leadingZeros f q ∧ q * 10 ^ leadingZeros f q < 10
  | 0, q, h, h1 => by simpa [leadingZeros] using ⟨by simpa using h, h1⟩
  | f + 1, q, h, h1 => by
    rw [leadingZeros]
    split_ifs with hq
    · simpa using ⟨hq, h1⟩
    · have := leadingZeros_value f (q * 10) (by rw [mul_assoc, ← pow_succ']; exact h) (by linarith)
      rw [mul_assoc, ← pow_succ'] at this
      exact this

/-- **C96 (floats).** The text of a float with at most seventeen decimals says its value: sign, integer part and fraction;
below 0.0001 a number from one to ten with its exponent. -/
theorem floatRepr_value {q : ℚ} (h : ∃ m : ℤ, q * 10 ^ 17 = m) :
    ∃ (n : ℕ) (ds : List Char), (∀ c ∈ ds, c.isDigit = true) ∧
      if q ≠ 0 ∧ |q| < 1 / 10000 then
        ∃ e : ℕ, floatRepr q = (if q < 0 then ['-'] else []) ++ (Nat.toDigits 10 n ++ (if ds = [] then [] else '.' :: ds) ++
            "e-".toList ++ (if e < 10 then ['0'] else []) ++ Nat.toDigits 10 e) ∧
          (n + fracValue ds) / 10 ^ e = |q| ∧ 1 ≤ n + fracValue ds ∧ n + fracValue ds < 10
      else floatRepr q = (if q < 0 then ['-'] else []) ++ (Nat.toDigits 10 n ++ '.' :: ds) ∧ ds ≠ [] ∧
        n + fracValue ds = |q| := by
  obtain ⟨m, hm⟩ := h
  have habs : |q| * 10 ^ 17 = ((|m| : ℤ) : ℚ) := by
    rw [Int.cast_abs, ← hm, abs_mul, abs_of_pos (show (0 : ℚ) < 10 ^ 17 by norm_num)]
  by_cases hs : q ≠ 0 ∧ |q| < 1 / 10000
  · have hpos : 0 < |q| := abs_pos.2 hs.1
    have hm1 : 1 ≤ |m| := by
      have : (0 : ℚ) < ((|m| : ℤ) : ℚ) := by rw [← habs]; positivity
      have : 0 < |m| := by exact_mod_cast this
      omega
    have hge : 1 ≤ |q| * 10 ^ 30 := by
      have h17 : (1 : ℚ) ≤ |q| * 10 ^ 17 := by rw [habs]; exact_mod_cast hm1
      have : |q| * 10 ^ 30 = |q| * 10 ^ 17 * 10 ^ 13 := by ring
      rw [this]
      nlinarith
    obtain ⟨l1, l2⟩ := leadingZeros_value 30 |q| hge (by linarith [hs.2])
    obtain ⟨n, ds, h1, h2, h3, -⟩ := decimalText_value false (q := |q| * 10 ^ leadingZeros 30 |q|) (by positivity)
      ⟨|m| * 10 ^ leadingZeros 30 |q|, by push_cast; rw [mul_right_comm, habs]; push_cast; ring⟩
    refine ⟨n, ds, h2, ?_⟩
    rw [if_pos hs]
    refine ⟨leadingZeros 30 |q|, ?_, ?_, by rw [h3]; exact l1, by rw [h3]; exact l2⟩
    · unfold floatRepr
      rw [if_pos hs]
      dsimp only
      rw [h1]
    · rw [h3]
      field_simp
  · obtain ⟨n, ds, h1, h2, h3, h4⟩ := decimalText_value true (abs_nonneg q) ⟨_, habs⟩
    refine ⟨n, ds, h2, ?_⟩
    rw [if_neg hs]
    refine ⟨?_, h4 rfl, h3⟩
    unfold floatRepr
    rw [if_neg hs, h1, if_neg (h4 rfl)]

/-- **C96 (integers).** The text of an integer is its sign and its digits. -/
theorem intRepr_value (z : ℤ) : ∃ ds : List Char, intRepr z = (if z < 0 then ['-'] else []) ++ ds ∧
    (Nat.ofDigitChars 10 ds 0 : ℤ) = |z| :=
  ⟨_, rfl, by rw [Nat.ofDigitChars_ten_toDigits, Int.abs_eq_natAbs]⟩

/-- All floats of the shipped sweeps have at most seventeen decimals. -/
theorem shipped_floats {rc : RunConfig} (hrc : rc ∈ shippedSweeps) {g : List ((Section × Key) × List Val)}
    (hg : g ∈ rc.sweep) {a : (Section × Key) × List Val} (ha : a ∈ g) {q : ℚ} (hq : Val.float q ∈ a.2) :
    ∃ m : ℤ, q * 10 ^ 17 = m := by
  have h : (shippedSweeps.all fun rc => rc.sweep.all fun g => g.all fun a => a.2.all fun v =>
      match v with | .float q => decide ((q * 10 ^ 17).den = 1) | _ => true) = true := by decide +kernel
  have := List.all_eq_true.1 (List.all_eq_true.1 (List.all_eq_true.1 (List.all_eq_true.1 h rc hrc) g hg) a ha) _ hq
  exact ⟨_, (Rat.coe_int_num_of_den_eq_one (of_decide_eq_true this)).symm⟩

/-- Floats of the shipped sweeps. -/
example : floatRepr (1 / 20) = "0.05".toList ∧ floatRepr (1 / 100000) = "1e-05".toList ∧
    floatRepr (1001 / 1000) = "1.001".toList ∧ floatRepr 5 = "5.0".toList ∧ ∃ m : ℤ, (1001 / 1000 : ℚ) * 10 ^ 17 = m := by
  refine ⟨by decide +kernel, by decide +kernel, by decide +kernel, by decide +kernel, 1001 * 10 ^ 14, by norm_num⟩

end Discs
