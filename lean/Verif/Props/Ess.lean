import Mathlib.Tactic.FieldSimp
import Mathlib.Tactic.Linarith
import Mathlib.Tactic.Ring
import Mathlib.Algebra.Order.BigOperators.Ring.Finset
import Mathlib.Algebra.BigOperators.Field
import Mathlib.Algebra.BigOperators.Fin
import Verif.Model.Ess

/-!
# C102: the effective sample size
-/

namespace Discs

open Finset

namespace Spec

/-- Sample autocovariance at lag `k`, without denominator. -/
noncomputable def acov (n : ℕ) (s : ℕ → ℝ) (k : ℕ) : ℝ :=
  ∑ i ∈ range (n - k), (s i - (∑ j ∈ range n, s j) / n) * (s (i + k) - (∑ j ∈ range n, s j) / n)

/-- `K` is the first lag with a negative sample autocovariance, or the length if there is none. -/
def Cutoff (n : ℕ) (s : ℕ → ℝ) (K : ℕ) : Prop :=
  K ≤ n ∧ (∀ k < K, 0 ≤ acov n s k) ∧ (K < n → acov n s K < 0)

end Spec

variable {n : ℕ} {s : ℕ → ℝ}

private theorem acov_zero : Spec.acov n s 0 = ∑ i ∈ range n, (s i - (∑ j ∈ range n, s j) / n) ^ 2 :=
  Finset.sum_congr rfl fun i _ => by rw [Nat.add_zero]; ring

private theorem acov_zero_nonneg : 0 ≤ Spec.acov n s 0 := by
  rw [acov_zero]
  exact Finset.sum_nonneg fun i _ => sq_nonneg _

/-- There is no variation exactly if the values are equal. -/
theorem acov_zero_iff : Spec.acov n s 0 = 0 ↔ ∀ i < n, ∀ j < n, s i = s j := by
  rw [acov_zero, Finset.sum_eq_zero_iff_of_nonneg fun i _ => sq_nonneg _]
  constructor
  · intro h i hi j hj
    have hi := pow_eq_zero_iff (two_ne_zero) |>.1 (h i (mem_range.2 hi))
    have hj := pow_eq_zero_iff (two_ne_zero) |>.1 (h j (mem_range.2 hj))
    linarith
  · intro h i hi
    rw [mem_range] at hi
    have hn : (n : ℝ) ≠ 0 := by
      have : n ≠ 0 := by omega
      exact_mod_cast this
    rw [Finset.sum_congr rfl fun j hj => h j (mem_range.1 hj) i hi, Finset.sum_const, card_range, nsmul_eq_mul,
      mul_div_cancel_left₀ _ hn, sub_self]
    norm_num

private theorem autoCov_eq (k : ℕ) : essAutoCov n s k = Spec.acov n s k / ((n - k : ℕ) : ℝ) := rfl

private theorem autoCov_zero (hn : 0 < n) : essAutoCov n s 0 = 0 ↔ Spec.acov n s 0 = 0 := by
  rw [autoCov_eq, Nat.sub_zero, div_eq_zero_iff]
  have : (n : ℝ) ≠ 0 := by exact_mod_cast hn.ne'
  simp [this]

private theorem autoCorr_neg (h0 : 0 < Spec.acov n s 0) {k : ℕ} (hk : k < n) :
    essAutoCorr n s k < 0 ↔ Spec.acov n s k < 0 := by
  have hn : (0 : ℝ) < n := by
    have : 0 < n := by omega
    exact_mod_cast this
  have hk' : (0 : ℝ) < ((n - k : ℕ) : ℝ) := by
    have : 0 < n - k := by omega
    exact_mod_cast this
  unfold essAutoCorr
  rw [autoCov_eq, autoCov_eq, Nat.sub_zero, div_lt_iff₀ (div_pos h0 hn), zero_mul, div_lt_iff₀ hk', zero_mul]

private theorem weighted (h0 : 0 < Spec.acov n s 0) {k : ℕ} (hk : k < n) :
    ((n : ℝ) - k) / n * essAutoCorr n s k = Spec.acov n s k / Spec.acov n s 0 := by
  have hn : (n : ℝ) ≠ 0 := by
    have : n ≠ 0 := by omega
    exact_mod_cast this
  have hk' : (n : ℝ) - k ≠ 0 := by
    have : (k : ℝ) < n := by exact_mod_cast hk
    linarith
  unfold essAutoCorr
  rw [autoCov_eq, autoCov_eq, Nat.sub_zero, Nat.cast_sub hk.le]
  field_simp

private theorem mask_one (h0 : 0 < Spec.acov n s 0) {K : ℕ} (hc : Spec.Cutoff n s K) {k : ℕ} (hk : k < K) :
    essMask n s k = 1 := by
  unfold essMask
  rw [Finset.sum_eq_zero fun j hj => ?_, sub_zero, max_eq_left zero_le_one]
  rw [mem_range] at hj
  have h1 := hc.1
  rw [if_neg]
  rw [autoCorr_neg h0 (by omega), not_lt]
  exact hc.2.1 j (by omega)

private theorem mask_zero (h0 : 0 < Spec.acov n s 0) {K : ℕ} (hc : Spec.Cutoff n s K) {k : ℕ} (hk : K ≤ k) (hkn : k < n) :
    essMask n s k = 0 := by
  unfold essMask
  refine max_eq_right (sub_nonpos.2 ?_)
  have hK : K ∈ range (k + 1) := mem_range.2 (by omega)
  refine le_trans ?_ (Finset.single_le_sum (fun j _ => ?_) hK)
  · rw [if_pos ((autoCorr_neg h0 (by omega)).2 (hc.2.2 (by omega)))]
  · split_ifs <;> norm_num

theorem cutoff_exists (n : ℕ) (s : ℕ → ℝ) : ∃! K, Spec.Cutoff n s K := by
  classical
  refine existsUnique_of_exists_of_unique ?_ ?_
  · by_cases h : ∃ k, k < n ∧ Spec.acov n s k < 0
    · refine ⟨Nat.find h, (Nat.find_spec h).1.le, fun k hk => ?_, fun _ => (Nat.find_spec h).2⟩
      by_contra hcon
      exact Nat.find_min h hk ⟨hk.trans (Nat.find_spec h).1, not_le.1 hcon⟩
    · exact ⟨n, le_rfl, fun k hk => not_lt.1 fun hcon => h ⟨k, hk, hcon⟩, fun hcon => absurd hcon (lt_irrefl n)⟩
  · intro K K' h h'
    by_contra hne
    rcases lt_or_gt_of_ne hne with hlt | hlt
    · exact absurd (h.2.2 (hlt.trans_le h'.1)) (not_lt.2 (h'.2.1 K hlt))
    · exact absurd (h'.2.2 (hlt.trans_le h.1)) (not_lt.2 (h.2.1 K' hlt))

private theorem cutoff_pos (hn : 0 < n) {K : ℕ} (hc : Spec.Cutoff n s K) : 0 < K := by
  rcases Nat.eq_zero_or_pos K with rfl | h
  · exact absurd (hc.2.2 hn) (not_lt.2 acov_zero_nonneg)
  · exact h

/-- **C102 (formula).**  With the sample autocovariances `c k` and the first lag `K` at which they are negative, the
effective sample size of a moving column is `n / (1 + 2 (c 1 + … + c (K - 1)) / c 0)`. -/
theorem essOf_eq (hn : 0 < n) (h0 : Spec.acov n s 0 ≠ 0) {K : ℕ} (hc : Spec.Cutoff n s K) :
    essOf n s = n / (1 + 2 * (∑ k ∈ Ico 1 K, Spec.acov n s k) / Spec.acov n s 0) := by
  have hpos : 0 < Spec.acov n s 0 := lt_of_le_of_ne acov_zero_nonneg (Ne.symm h0)
  have hK := cutoff_pos hn hc
  unfold essOf essColumn
  rw [if_neg (by rwa [autoCov_zero hn]), Option.getD_some]
  congr 1
  have h1 : ∑ k ∈ Ico 0 K, ((n : ℝ) - k) / n * essAutoCorr n s k * essMask n s k
      = ∑ k ∈ Ico 0 K, Spec.acov n s k / Spec.acov n s 0 := by
    refine Finset.sum_congr rfl fun k hk => ?_
    rw [mem_Ico] at hk
    have h1 := hc.1
    rw [mask_one hpos hc hk.2, mul_one, weighted hpos (by omega)]
  have h2 : ∑ k ∈ Ico K n, ((n : ℝ) - k) / n * essAutoCorr n s k * essMask n s k = 0 := by
    refine Finset.sum_eq_zero fun k hk => ?_
    rw [mem_Ico] at hk
    rw [mask_zero hpos hc hk.1 hk.2, mul_zero]
  rw [Finset.range_eq_Ico, ← Finset.sum_Ico_consecutive _ (Nat.zero_le K) hc.1, h1, h2, add_zero,
    Finset.sum_eq_sum_Ico_succ_bot hK, div_self h0, ← Finset.sum_div]
  ring

/-- A stuck column counts as one sample. -/
theorem essOf_const (hn : 0 < n) (h : ∀ i < n, ∀ j < n, s i = s j) : essOf n s = 1 := by
  unfold essOf essColumn
  rw [if_pos ((autoCov_zero hn).2 (acov_zero_iff.2 h)), Option.getD_none]

/-- A column whose first autocorrelation is negative counts as independent samples. -/
theorem essOf_first_negative (h : Spec.acov n s 1 < 0) (hn : 1 < n) : essOf n s = n := by
  have h0 : Spec.acov n s 0 ≠ 0 := by
    intro h0
    have hc := acov_zero_iff.1 h0
    have hnn : (n : ℝ) ≠ 0 := by
      have : n ≠ 0 := by omega
      exact_mod_cast this
    have : Spec.acov n s 1 = 0 := by
      refine Finset.sum_eq_zero fun i hi => ?_
      rw [mem_range] at hi
      have hm : (∑ j ∈ range n, s j) / n = s i := by
        rw [Finset.sum_congr rfl fun j hj => hc j (mem_range.1 hj) i (by omega), Finset.sum_const, card_range, nsmul_eq_mul,
          mul_div_cancel_left₀ _ hnn]
      rw [hm, sub_self, zero_mul]
    linarith
  have hc : Spec.Cutoff n s 1 := ⟨hn.le, fun k hk => by
    obtain rfl : k = 0 := by omega
    exact acov_zero_nonneg, fun _ => h⟩
  rw [essOf_eq (by omega) h0 hc]
  simp

/-! ### Range -/

private theorem sum_lag (f : ℕ → ℕ → ℝ) (n k : ℕ) :
    ∑ i ∈ range (n - k), f i (i + k) = ∑ i ∈ range n, ∑ j ∈ range n, if j = i + k then f i j else 0 := by
  have h : ∀ i ∈ range n, (∑ j ∈ range n, if j = i + k then f i j else 0) = if i + k < n then f i (i + k) else 0 := by
    intro i _
    rw [Finset.sum_ite_eq' (range n) (i + k) (f i)]
    simp [mem_range]
  rw [Finset.sum_congr rfl h, ← Finset.sum_filter]
  refine Finset.sum_congr ?_ fun _ _ => rfl
  ext i
  simp only [mem_range, mem_filter]
  omega

/-- The sum of the kept autocovariances, counted on both sides, is at most `n` times the variance. -/
private theorem band_bound (n : ℕ) (d : ℕ → ℝ) (K : ℕ) :
    ∑ i ∈ range n, d i ^ 2 + 2 * ∑ k ∈ Ico 1 K, ∑ i ∈ range (n - k), d i * d (i + k) ≤ n * ∑ i ∈ range n, d i ^ 2 := by
  have hk : ∀ k, 2 * ∑ i ∈ range (n - k), d i * d (i + k)
      ≤ ∑ i ∈ range n, ∑ j ∈ range n, if j = i + k then d i ^ 2 + d j ^ 2 else 0 := by
    intro k
    rw [← sum_lag (fun i j => d i ^ 2 + d j ^ 2) n k, Finset.mul_sum]
    exact Finset.sum_le_sum fun i _ => by nlinarith [sq_nonneg (d i - d (i + k))]
  have h1 : 2 * ∑ k ∈ Ico 1 K, ∑ i ∈ range (n - k), d i * d (i + k)
      ≤ ∑ i ∈ range n, ∑ j ∈ range n, if i < j then d i ^ 2 + d j ^ 2 else 0 := by
    rw [Finset.mul_sum]
    refine (Finset.sum_le_sum fun k _ => hk k).trans ?_
    rw [Finset.sum_comm]
    refine Finset.sum_le_sum fun i _ => ?_
    rw [Finset.sum_comm]
    refine Finset.sum_le_sum fun j _ => ?_
    have hnn : 0 ≤ d i ^ 2 + d j ^ 2 := add_nonneg (sq_nonneg _) (sq_nonneg _)
    by_cases hij : i < j
    · rw [if_pos hij]
      have : ∀ k ∈ Ico 1 K, (if j = i + k then d i ^ 2 + d j ^ 2 else 0) = if j - i = k then d i ^ 2 + d j ^ 2 else 0 :=
        fun k _ => if_congr (by omega) rfl rfl
      rw [Finset.sum_congr rfl this, Finset.sum_ite_eq]
      split_ifs <;> linarith
    · rw [if_neg hij]
      refine (Finset.sum_eq_zero fun k hk => ?_).le
      rw [mem_Ico] at hk
      rw [if_neg (by omega)]
  have h2 : ∑ i ∈ range n, ∑ j ∈ range n, (if i < j then d i ^ 2 + d j ^ 2 else 0) + ∑ i ∈ range n, d i ^ 2
      = n * ∑ i ∈ range n, d i ^ 2 := by
    have hs : ∑ i ∈ range n, ∑ j ∈ range n, (if i < j then d i ^ 2 + d j ^ 2 else 0)
        = ∑ i ∈ range n, ∑ j ∈ range n, (if i < j then d i ^ 2 else 0)
          + ∑ i ∈ range n, ∑ j ∈ range n, (if j < i then d i ^ 2 else 0) := by
      rw [Finset.sum_comm (f := fun i j => if j < i then d i ^ 2 else 0), ← Finset.sum_add_distrib]
      refine Finset.sum_congr rfl fun i _ => ?_
      rw [← Finset.sum_add_distrib]
      exact Finset.sum_congr rfl fun j _ => by split_ifs <;> ring
    have hd : ∑ i ∈ range n, d i ^ 2 = ∑ i ∈ range n, ∑ j ∈ range n, (if i = j then d i ^ 2 else 0) := by
      refine Finset.sum_congr rfl fun i hi => ?_
      rw [Finset.sum_ite_eq, if_pos hi]
    rw [hs, Finset.mul_sum]
    conv_lhs => rw [hd]
    rw [← Finset.sum_add_distrib, ← Finset.sum_add_distrib]
    refine Finset.sum_congr rfl fun i _ => ?_
    rw [← Finset.sum_add_distrib, ← Finset.sum_add_distrib, Finset.sum_congr rfl fun j _ => show _ = d i ^ 2 from ?_,
      Finset.sum_const, card_range, nsmul_eq_mul]
    rcases lt_trichotomy i j with h | h | h
    · rw [if_pos h, if_neg (by omega), if_neg (by omega)]; ring
    · rw [if_neg (by omega), if_neg (by omega), if_pos h]; ring
    · rw [if_neg (by omega), if_pos h, if_neg (by omega)]; ring
  linarith

/-- **C102 (range).**  The effective sample size lies between one and the number of samples, and stuck chains have the
smallest. -/
theorem essOf_range (hn : 0 < n) (s : ℕ → ℝ) : 1 ≤ essOf n s ∧ essOf n s ≤ n := by
  have hn1 : (1 : ℝ) ≤ n := by exact_mod_cast hn
  by_cases h0 : Spec.acov n s 0 = 0
  · rw [essOf_const hn (acov_zero_iff.1 h0)]
    exact ⟨le_rfl, hn1⟩
  · have hpos : 0 < Spec.acov n s 0 := lt_of_le_of_ne acov_zero_nonneg (Ne.symm h0)
    obtain ⟨K, hc, -⟩ := cutoff_exists n s
    have hS : 0 ≤ ∑ k ∈ Ico 1 K, Spec.acov n s k :=
      Finset.sum_nonneg fun k hk => hc.2.1 k (mem_Ico.1 hk).2
    have hb := band_bound n (fun i => s i - (∑ j ∈ range n, s j) / n) K
    rw [← acov_zero] at hb
    change Spec.acov n s 0 + 2 * ∑ k ∈ Ico 1 K, Spec.acov n s k ≤ n * Spec.acov n s 0 at hb
    rw [essOf_eq hn h0 hc]
    have hden : 1 ≤ 1 + 2 * (∑ k ∈ Ico 1 K, Spec.acov n s k) / Spec.acov n s 0 :=
      le_add_of_nonneg_right (div_nonneg (by linarith) hpos.le)
    refine ⟨?_, div_le_self (by linarith) hden⟩
    rw [le_div_iff₀ (by linarith), one_mul, ← div_self h0, ← add_div, div_le_iff₀ hpos]
    exact hb

/-! ### Invariance -/

private theorem acov_affine (hn : 0 < n) (a b : ℝ) (k : ℕ) :
    Spec.acov n (fun i => a * s i + b) k = a ^ 2 * Spec.acov n s k := by
  have hn' : (n : ℝ) ≠ 0 := by exact_mod_cast hn.ne'
  have hm : (∑ j ∈ range n, (a * s j + b)) / n = a * ((∑ j ∈ range n, s j) / n) + b := by
    rw [Finset.sum_add_distrib, ← Finset.mul_sum, Finset.sum_const, card_range, nsmul_eq_mul]
    field_simp
  unfold Spec.acov
  rw [hm, Finset.mul_sum]
  exact Finset.sum_congr rfl fun i _ => by ring

private theorem ess_congr {t : ℕ → ℝ} (hn : 0 < n) {a : ℝ} (ha : 0 < a)
    (h : ∀ k < n, Spec.acov n t k = a * Spec.acov n s k) : essOf n t = essOf n s := by
  have h00 := h 0 hn
  by_cases h0 : Spec.acov n s 0 = 0
  · rw [essOf_const hn (acov_zero_iff.1 h0), essOf_const hn (acov_zero_iff.1 (by rw [h00, h0, mul_zero]))]
  · obtain ⟨K, hc, -⟩ := cutoff_exists n s
    have hc' : Spec.Cutoff n t K := by
      refine ⟨hc.1, fun k hk => ?_, fun hK => ?_⟩
      · rw [h k (hk.trans_le hc.1)]; exact mul_nonneg ha.le (hc.2.1 k hk)
      · rw [h K hK]; exact mul_neg_of_pos_of_neg ha (hc.2.2 hK)
    rw [essOf_eq hn h0 hc, essOf_eq hn (by rw [h00]; exact mul_ne_zero ha.ne' h0) hc', h00,
      Finset.sum_congr rfl fun k hk => h k ((mem_Ico.1 hk).2.trans_le hc.1), ← Finset.mul_sum]
    congr 2
    rw [show 2 * (a * ∑ k ∈ Ico 1 K, Spec.acov n s k) = a * (2 * ∑ k ∈ Ico 1 K, Spec.acov n s k) by ring,
      mul_div_mul_left _ _ ha.ne']

/-- **C102 (scale).**  The effective sample size does not depend on scale and offset of the mapped samples. -/
theorem essOf_affine (hn : 0 < n) {a : ℝ} (ha : a ≠ 0) (b : ℝ) (s : ℕ → ℝ) :
    essOf n (fun i => a * s i + b) = essOf n s :=
  ess_congr hn (by positivity) fun k _ => acov_affine hn a b k

/-- For binary chains the reference sample and its complement give the same number. -/
theorem essOf_complement {D : ℕ} (hn : 0 < n) (x0 : Fin D → ℤ) (h0 : ∀ i, x0 i = 0 ∨ x0 i = 1) (x : ℕ → Fin D → ℤ)
    (hx : ∀ t i, x t i = 0 ∨ x t i = 1) :
    essOf n (fun t => (essMapped (fun i => 1 - x0 i) (x t) : ℝ)) = essOf n fun t => (essMapped x0 (x t) : ℝ) := by
  have : (fun t => (essMapped (fun i => 1 - x0 i) (x t) : ℝ)) = fun t => -1 * (essMapped x0 (x t) : ℝ) + D := by
    funext t
    have e : essMapped (fun i => 1 - x0 i) (x t) = -1 * essMapped x0 (x t) + D := by
      have hd : (D : ℤ) = ∑ _i : Fin D, 1 := by simp
      unfold essMapped
      rw [hd, Finset.mul_sum, ← Finset.sum_add_distrib]
      refine Finset.sum_congr rfl fun i _ => ?_
      change |x t i - (1 - x0 i)| = _
      rcases h0 i with a | a <;> rcases hx t i with b | b <;> rw [a, b] <;> rfl
    exact_mod_cast e
  rw [this]
  exact essOf_affine hn (by norm_num) _ _

/-- **C102 (direction).**  Read backwards, a column has the same effective sample size. -/
theorem essOf_reverse (hn : 0 < n) (s : ℕ → ℝ) : essOf n (fun i => s (n - 1 - i)) = essOf n s := by
  refine ess_congr hn one_pos fun k hk => ?_
  rw [one_mul]
  unfold Spec.acov
  rw [Finset.sum_range_reflect s n, ← Finset.sum_range_reflect _ (n - k)]
  refine Finset.sum_congr rfl fun i hi => ?_
  rw [mem_range] at hi
  beta_reduce
  rw [show n - 1 - (n - k - 1 - i) = i + k by omega, show n - 1 - (n - k - 1 - i + k) = i by omega, mul_comm]

/-! ### Chains with the largest value -/

/-- **C102 (refuted: a large value means a moving chain).**  A column that stays at one value and changes in the last
step only has the largest effective sample size possible. -/
theorem essOf_last (n : ℕ) (hn : 2 ≤ n) (a b : ℝ) (hab : a ≠ b) :
    essOf n (fun i => if i + 1 = n then b else a) = n := by
  refine essOf_first_negative ?_ (by omega)
  obtain ⟨m, rfl⟩ : ∃ m, n = m + 2 := ⟨n - 2, by omega⟩
  have hm : (∑ j ∈ range (m + 2), if j + 1 = m + 2 then b else a) / ((m + 2 : ℕ) : ℝ) = a + (b - a) / (m + 2) := by
    rw [Finset.sum_range_succ, if_pos (by omega), Finset.sum_congr rfl fun j hj => if_neg (by rw [mem_range] at hj; omega),
      Finset.sum_const, card_range, nsmul_eq_mul]
    push_cast
    field_simp
    ring
  unfold Spec.acov
  beta_reduce
  rw [hm, show m + 2 - 1 = m + 1 by omega, Finset.sum_range_succ, if_neg (by omega), if_pos (by omega),
    Finset.sum_congr rfl fun i hi => show _ = ((b - a) / (m + 2)) ^ 2 from ?_, Finset.sum_const, card_range, nsmul_eq_mul]
  · have hd : (0 : ℝ) < (m + 2) := by positivity
    have hba : 0 < (b - a) ^ 2 := by
      have : b - a ≠ 0 := sub_ne_zero.2 (Ne.symm hab)
      positivity
    have : (m : ℝ) * ((b - a) / (m + 2)) ^ 2 + (a - (a + (b - a) / (m + 2))) * (b - (a + (b - a) / (m + 2)))
        = -((b - a) ^ 2 / (m + 2) ^ 2) := by
      field_simp
      ring
    rw [this]
    exact neg_neg_of_pos (by positivity)
  · rw [mem_range] at hi
    rw [if_neg (by omega), if_neg (by omega)]
    ring

/-- **C102 (refuted: a large value means convergence).**  A column that alternates between two values for ever has the
largest effective sample size possible. -/
theorem essOf_alternating (m : ℕ) (hm : 0 < m) (a b : ℝ) (hab : a ≠ b) :
    essOf (2 * m) (fun i => if i % 2 = 0 then a else b) = (2 * m : ℕ) := by
  refine essOf_first_negative ?_ (by omega)
  have hsum : ∀ m : ℕ, ∑ j ∈ range (2 * m), (if j % 2 = 0 then a else b) = m * (a + b) := by
    intro m
    induction m with
    | zero => simp
    | succ m ih =>
      rw [show 2 * (m + 1) = 2 * m + 1 + 1 by ring, Finset.sum_range_succ, Finset.sum_range_succ, ih, if_pos (by omega),
        if_neg (by omega)]
      push_cast
      ring
  have hm' : (m : ℝ) ≠ 0 := by exact_mod_cast hm.ne'
  have hmean : (∑ j ∈ range (2 * m), if j % 2 = 0 then a else b) / ((2 * m : ℕ) : ℝ) = (a + b) / 2 := by
    rw [hsum]; push_cast; field_simp
  unfold Spec.acov
  beta_reduce
  rw [hmean, Finset.sum_congr rfl fun i _ => show _ = -((a - b) / 2) ^ 2 from ?_, Finset.sum_const, card_range, nsmul_eq_mul]
  · have h1 : (0 : ℝ) < ((2 * m - 1 : ℕ) : ℝ) := by
      have : 0 < 2 * m - 1 := by omega
      exact_mod_cast this
    have h2 : 0 < ((a - b) / 2) ^ 2 := by
      have : a - b ≠ 0 := sub_ne_zero.2 hab
      positivity
    nlinarith
  · rcases Nat.mod_two_eq_zero_or_one i with h | h
    · rw [if_pos h, if_neg (by omega)]; ring
    · rw [if_neg (by omega), if_pos (by omega)]; ring

/-! ### All chains -/

/-- **C102 (batch).**  Mean and deviation over the chains: the mean lies between one and the number of samples, the
deviation is zero exactly if all chains have the same value. -/
theorem getEss_range {b : ℕ} (hb : 0 < b) (hn : 0 < n) (s : Fin b → ℕ → ℝ) :
    1 ≤ (getEss n s).1 ∧ (getEss n s).1 ≤ n ∧ 0 ≤ (getEss n s).2 ∧
      ((getEss n s).2 = 0 ↔ ∀ c, essOf n (s c) = (getEss n s).1) := by
  have hb' : (0 : ℝ) < b := by exact_mod_cast hb
  refine ⟨?_, ?_, Real.sqrt_nonneg _, ?_⟩
  · change 1 ≤ (∑ c, essOf n (s c)) / b
    rw [le_div_iff₀ hb', one_mul]
    calc (b : ℝ) = ∑ _c : Fin b, 1 := by simp
      _ ≤ _ := Finset.sum_le_sum fun c _ => (essOf_range hn (s c)).1
  · change (∑ c, essOf n (s c)) / b ≤ n
    rw [div_le_iff₀ hb']
    calc ∑ c, essOf n (s c) ≤ ∑ _c : Fin b, (n : ℝ) := Finset.sum_le_sum fun c _ => (essOf_range hn (s c)).2
      _ = n * b := by simp [mul_comm]
  · change Real.sqrt ((∑ c, (essOf n (s c) - (getEss n s).1) ^ 2) / b) = 0 ↔ _
    have hnn : 0 ≤ ∑ c, (essOf n (s c) - (getEss n s).1) ^ 2 := Finset.sum_nonneg fun c _ => sq_nonneg _
    rw [Real.sqrt_eq_zero (div_nonneg hnn hb'.le), div_eq_zero_iff, or_iff_left hb'.ne',
      Finset.sum_eq_zero_iff_of_nonneg fun c _ => sq_nonneg _]
    simp only [Finset.mem_univ, true_imp_iff, pow_eq_zero_iff two_ne_zero, sub_eq_zero]

/-- The reported pair holds the first two moments of the chains' values. -/
theorem getEss_moments {b : ℕ} (hb : 0 < b) (s : Fin b → ℕ → ℝ) :
    b * (getEss n s).1 = ∑ c, essOf n (s c) ∧ b * ((getEss n s).2 ^ 2 + (getEss n s).1 ^ 2) = ∑ c, essOf n (s c) ^ 2 := by
  have hb' : (b : ℝ) ≠ 0 := by exact_mod_cast hb.ne'
  have h1 : b * (getEss n s).1 = ∑ c, essOf n (s c) := mul_div_cancel₀ _ hb'
  refine ⟨h1, ?_⟩
  have h2 : (getEss n s).2 ^ 2 = (∑ c, (essOf n (s c) - (getEss n s).1) ^ 2) / b :=
    Real.sq_sqrt (div_nonneg (Finset.sum_nonneg fun c _ => sq_nonneg _) (Nat.cast_nonneg b))
  rw [h2, mul_add, mul_div_cancel₀ _ hb']
  have h3 : ∑ c, (essOf n (s c) - (getEss n s).1) ^ 2
      = ∑ c, essOf n (s c) ^ 2 - 2 * (getEss n s).1 * ∑ c, essOf n (s c) + b * (getEss n s).1 ^ 2 := by
    rw [Finset.mul_sum, ← Finset.sum_sub_distrib,
      show (b : ℝ) * (getEss n s).1 ^ 2 = ∑ _c : Fin b, (getEss n s).1 ^ 2 by simp, ← Finset.sum_add_distrib]
    exact Finset.sum_congr rfl fun c _ => by ring
  rw [h3, ← h1]
  ring

/-- A stuck chain and a chain that moves once, out of ten recorded steps: mean 5.5. -/
example : (getEss 10 (b := 2) fun c i => if c = 0 then 3 else if i + 1 = 10 then 1 else 0).1 = 11 / 2 := by
  change (∑ c : Fin 2, essOf 10 _) / ((2 : ℕ) : ℝ) = _
  rw [Fin.sum_univ_two]
  have h1 : essOf 10 (fun _ => (3 : ℝ)) = 1 := essOf_const (by norm_num) fun _ _ _ _ => rfl
  have h2 := essOf_last 10 (by norm_num) 0 1 (by norm_num)
  change (essOf 10 (fun _ => (3 : ℝ)) + essOf 10 (fun i => if i + 1 = 10 then (1 : ℝ) else 0)) / ((2 : ℕ) : ℝ) = _
  rw [h1, h2]
  norm_num

end Discs
