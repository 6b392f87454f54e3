import Verif.Spec.Float32
import Mathlib.Data.Int.Log
import Mathlib.Algebra.Order.Archimedean.Real.Basic
import Mathlib.Algebra.Order.Round
import Mathlib.Tactic.Linarith
import Mathlib.Tactic.Positivity
import Mathlib.Tactic.NormNum
import Mathlib.Tactic.FieldSimp
import Mathlib.Tactic.Ring

/-! # Helper lemmas: single-precision arithmetic -/

namespace Discs.Spec

/-- Relative error of one rounding. -/
noncomputable def f32u : ℝ := 2⁻¹ ^ 24

theorem f32u_pos : 0 < f32u := by unfold f32u; positivity

theorem list_abs_sum_le {G : Type*} [AddCommGroup G] [LinearOrder G] [IsOrderedAddMonoid G] (l : List G) :
    |l.sum| ≤ (l.map abs).sum := by
  induction l with
  | nil => simp
  | cons t l ih =>
    rw [List.map_cons, List.sum_cons, List.sum_cons]
    exact (abs_add_le t l.sum).trans (add_le_add le_rfl ih)

theorem isF32_int {n : ℤ} (h : |n| ≤ 2 ^ 24) : IsF32 n := ⟨n, 0, h, by simp⟩

theorem isF32_zero : IsF32 0 := by simpa using isF32_int (n := 0) (by norm_num)

theorem isF32_one : IsF32 1 := by simpa using isF32_int (n := 1) (by norm_num)

theorem IsF32.neg {r : ℝ} (h : IsF32 r) : IsF32 (-r) := by
  obtain ⟨m, e, hm, rfl⟩ := h
  exact ⟨-m, e, by rwa [abs_neg], by push_cast; ring⟩

/-- Every number has a single-precision number within half a unit of its last place. -/
theorem exists_isF32 (z : ℝ) : ∃ r, IsF32 r ∧ |z - r| ≤ f32u * |z| := by
  rcases eq_or_ne z 0 with rfl | hz
  · exact ⟨0, isF32_zero, by simp⟩
  have hp : 0 < |z| := abs_pos.2 hz
  set k := Int.log 2 |z| with hk
  have hlo : (2 : ℝ) ^ k ≤ |z| := by exact_mod_cast Int.zpow_log_le_self (R := ℝ) (b := 2) (by norm_num) hp
  have hhi : |z| < (2 : ℝ) ^ (k + 1) := by exact_mod_cast Int.lt_zpow_succ_log_self (R := ℝ) (b := 2) (by norm_num) |z|
  set s : ℝ := 2 ^ (k - 23) with hs
  have hs0 : 0 < s := zpow_pos (by norm_num) _
  have hround := abs_sub_round (z / s)
  have e1 : (2 : ℝ) ^ k = s * 2 ^ 23 := by
    rw [hs, show k = (k - 23) + 23 by ring, zpow_add₀ (by norm_num)]
    congr 1
    · congr 1; ring
  have e2 : (2 : ℝ) ^ (k + 1) = s * 2 ^ 24 := by
    rw [zpow_add₀ (by norm_num), e1]; norm_num; ring
  refine ⟨round (z / s) * s, ⟨round (z / s), k - 23, ?_, rfl⟩, ?_⟩
  · have h1 : |z / s| < 2 ^ 24 := by
      rw [abs_div, abs_of_pos hs0, div_lt_iff₀ hs0, mul_comm, ← e2]; exact hhi
    have h2 : |((round (z / s) : ℤ) : ℝ)| < 2 ^ 24 + 1 := by
      have := abs_sub_abs_le_abs_sub ((round (z / s) : ℤ) : ℝ) (z / s)
      rw [abs_sub_comm] at this
      linarith
    have h3 : |round (z / s)| < 2 ^ 24 + 1 := by exact_mod_cast h2
    omega
  · have : z - round (z / s) * s = (z / s - round (z / s)) * s := by field_simp
    rw [this, abs_mul, abs_of_pos hs0]
    have h2 : f32u * (s * 2 ^ 23) = s / 2 := by unfold f32u; norm_num; ring
    have h3 : f32u * (s * 2 ^ 23) ≤ f32u * |z| := mul_le_mul_of_nonneg_left (e1 ▸ hlo) f32u_pos.le
    nlinarith

section

variable {rd : ℝ → ℝ} (hrd : IsRound rd)

include hrd

theorem IsRound.rel (z : ℝ) : |rd z - z| ≤ f32u * |z| := by
  obtain ⟨r, hr, h⟩ := exists_isF32 z
  rw [abs_sub_comm]
  exact ((hrd z).2 r hr).trans h

theorem IsRound.f32 (z : ℝ) : IsF32 (rd z) := (hrd z).1

theorem IsRound.exact {z : ℝ} (hz : IsF32 z) : rd z = z := by
  have := (hrd z).2 z hz
  rw [sub_self, abs_zero] at this
  exact (sub_eq_zero.1 (abs_nonpos_iff.1 this)).symm

theorem IsRound.int {n : ℤ} (h : |n| ≤ 2 ^ 24) : rd n = n := hrd.exact (isF32_int h)

theorem IsRound.nat {n : ℕ} (h : n ≤ 2 ^ 24) : rd n = n := by
  have := hrd.int (n := n) (by rw [abs_of_nonneg (by positivity)]; exact_mod_cast h)
  simpa using this

theorem IsRound.abs_le (z : ℝ) : |rd z| ≤ (1 + f32u) * |z| := by
  have := hrd.rel z
  have h := abs_sub_abs_le_abs_sub (rd z) z
  linarith

/-- The computed sum of single-precision numbers is one, and its error is bounded whatever the order. -/
theorem SumF.err {l : List ℝ} {r : ℝ} (h : SumF rd l r) (hl : ∀ t ∈ l, IsF32 t) :
    IsF32 r ∧ |r - l.sum| ≤ ((1 + f32u) ^ (l.length - 1) - 1) * (l.map abs).sum := by
  have hg : 1 ≤ 1 + f32u := by linarith [f32u_pos]
  induction h with
  | nil => exact ⟨isF32_zero, by simp⟩
  | one t => exact ⟨hl t (by simp), by simp⟩
  | @add l l' l'' a b ha hb hp iha ihb =>
    have hl1 : ∀ t ∈ l, IsF32 t := fun t ht => hl t (hp.mem_iff.2 (List.mem_append_left _ ht))
    have hl2 : ∀ t ∈ l', IsF32 t := fun t ht => hl t (hp.mem_iff.2 (List.mem_append_right _ ht))
    obtain ⟨fa, ea⟩ := iha hl1
    obtain ⟨fb, eb⟩ := ihb hl2
    refine ⟨hrd.f32 _, ?_⟩
    have hsum : l''.sum = l.sum + l'.sum := by rw [hp.sum_eq, List.sum_append]
    have habs : (l''.map abs).sum = (l.map abs).sum + (l'.map abs).sum := by
      rw [(hp.map abs).sum_eq, List.map_append, List.sum_append]
    have hlen : l''.length = l.length + l'.length := by rw [hp.length_eq, List.length_append]
    have hS : ∀ l : List ℝ, 0 ≤ (l.map abs).sum := fun l => List.sum_nonneg fun t ht => by
      obtain ⟨s, -, rfl⟩ := List.mem_map.1 ht
      exact abs_nonneg s
    rcases Nat.eq_zero_or_pos l.length with h1 | h1
    · obtain rfl : l = [] := List.length_eq_zero_iff.1 h1
      have ha0 : a = 0 := by simpa using ea
      rw [hsum, habs, hlen, ha0, zero_add, hrd.exact fb]
      simpa using eb
    rcases Nat.eq_zero_or_pos l'.length with h2 | h2
    · obtain rfl : l' = [] := List.length_eq_zero_iff.1 h2
      have hb0 : b = 0 := by simpa using eb
      rw [hsum, habs, hlen, hb0, add_zero, hrd.exact fa]
      simpa using ea
    have hbound : ∀ l : List ℝ, |l.sum| ≤ (l.map abs).sum := list_abs_sum_le
    set S := (l.map abs).sum
    set S' := (l'.map abs).sum
    obtain ⟨n, hn⟩ : ∃ n, l.length = n + 1 := ⟨l.length - 1, by omega⟩
    obtain ⟨n', hn'⟩ : ∃ n', l'.length = n' + 1 := ⟨l'.length - 1, by omega⟩
    rw [hn] at ea
    rw [hn'] at eb
    simp only [Nat.add_sub_cancel] at ea eb
    have hA : |a| ≤ (1 + f32u) ^ n * S := by
      have := abs_sub_abs_le_abs_sub a l.sum
      have := hbound l
      nlinarith
    have hB : |b| ≤ (1 + f32u) ^ n' * S' := by
      have := abs_sub_abs_le_abs_sub b l'.sum
      have := hbound l'
      nlinarith
    have hr := hrd.rel (a + b)
    have hab := abs_add_le a b
    have hS1 := hS l
    have hS2 := hS l'
    have hu := f32u_pos
    rw [hsum, habs, hlen, hn, hn', show n + 1 + (n' + 1) - 1 = n + n' + 1 by omega]
    have p1 : (1 + f32u) ^ (n + 1) ≤ (1 + f32u) ^ (n + n' + 1) := pow_le_pow_right₀ hg (by omega)
    have p2 : (1 + f32u) ^ (n' + 1) ≤ (1 + f32u) ^ (n + n' + 1) := pow_le_pow_right₀ hg (by omega)
    calc |rd (a + b) - (l.sum + l'.sum)|
        ≤ |rd (a + b) - (a + b)| + (|a - l.sum| + |b - l'.sum|) := by
          have := abs_add_le (rd (a + b) - (a + b)) ((a - l.sum) + (b - l'.sum))
          have h3 := abs_add_le (a - l.sum) (b - l'.sum)
          rw [show rd (a + b) - (l.sum + l'.sum) = (rd (a + b) - (a + b)) + ((a - l.sum) + (b - l'.sum)) by ring]
          linarith
      _ ≤ f32u * ((1 + f32u) ^ n * S + (1 + f32u) ^ n' * S') +
            (((1 + f32u) ^ n - 1) * S + ((1 + f32u) ^ n' - 1) * S') := by
          have : f32u * |a + b| ≤ f32u * ((1 + f32u) ^ n * S + (1 + f32u) ^ n' * S') :=
            mul_le_mul_of_nonneg_left (by linarith) hu.le
          linarith
      _ = ((1 + f32u) ^ (n + 1) - 1) * S + ((1 + f32u) ^ (n' + 1) - 1) * S' := by ring
      _ ≤ ((1 + f32u) ^ (n + n' + 1) - 1) * (S + S') := by nlinarith

/-- Sums of whole numbers are computed without any error as long as no partial sum can exceed `2 ^ 24`. -/
theorem SumF.int {l : List ℝ} {r : ℝ} (h : SumF rd l r) (z : List ℤ) (hz : l = z.map (↑))
    (hb : (z.map abs).sum ≤ 2 ^ 24) : r = z.sum := by
  induction h generalizing z with
  | nil =>
    obtain rfl : z = [] := by simpa using hz.symm
    simp
  | one t =>
    obtain ⟨n, rfl, rfl⟩ : ∃ n : ℤ, z = [n] ∧ t = n := by
      cases z with
      | nil => simp at hz
      | cons n z =>
        simp only [List.map_cons, List.cons.injEq] at hz
        exact ⟨n, by simpa using hz.2.symm, hz.1⟩
    simp
  | @add l l' l'' a b ha hb' hp iha ihb =>
    subst hz
    have hint : ∀ t ∈ l ++ l', ∃ n : ℤ, (n : ℝ) = t := by
      intro t ht
      have := hp.mem_iff.2 ht
      obtain ⟨n, -, hn⟩ := List.mem_map.1 this
      exact ⟨n, hn⟩
    have lift : ∀ m : List ℝ, (∀ t ∈ m, ∃ n : ℤ, (n : ℝ) = t) → ∃ z : List ℤ, m = z.map (↑) := by
      intro m hm
      induction m with
      | nil => exact ⟨[], rfl⟩
      | cons t m ih =>
        obtain ⟨n, hn⟩ := hm t (by simp)
        obtain ⟨z, hz⟩ := ih fun s hs => hm s (by simp [hs])
        exact ⟨n :: z, by simp [hn, hz]⟩
    obtain ⟨z1, rfl⟩ := lift l fun t ht => hint t (List.mem_append_left _ ht)
    obtain ⟨z2, rfl⟩ := lift l' fun t ht => hint t (List.mem_append_right _ ht)
    have hperm : z.Perm (z1 ++ z2) := by
      rw [← List.map_append] at hp
      exact (List.map_perm_map_iff Int.cast_injective).1 hp
    have hs : (z.map abs).sum = (z1.map abs).sum + (z2.map abs).sum := by
      rw [(hperm.map abs).sum_eq, List.map_append, List.sum_append]
    have hn : ∀ w : List ℤ, 0 ≤ (w.map abs).sum := fun w => List.sum_nonneg fun t ht => by
      obtain ⟨s, -, rfl⟩ := List.mem_map.1 ht
      exact abs_nonneg s
    have h1 := hn z1
    have h2 := hn z2
    have ea := iha z1 rfl (by omega)
    have eb := ihb z2 rfl (by omega)
    have hzs : z.sum = z1.sum + z2.sum := by rw [hperm.sum_eq, List.sum_append]
    rw [ea, eb, ← Int.cast_add, ← hzs]
    refine hrd.int ?_
    have := list_abs_sum_le z
    omega

end

end Discs.Spec
