import Verif.Props.COExperiment
import Verif.Lemmas.Anneal

/-!
# Property C109, part 1: how fast the schedules move

The inverse temperature moves by at most a constant over the length of the chain at every step.
-/

namespace Discs

open Spec

/-- **C109 (constant schedule).** -/
theorem const_drift (init : ℝ) (t : ℕ) :
    |1 / constSchedule init t - 1 / constSchedule init (t + 1)| = 0 := by
  simp [constSchedule]

/-- **C109 (linear schedule).** -/
theorem linear_drift {init fin : ℝ} (h : fin ≤ init) (hf : 0 < fin) {L t : ℕ} (ht : t < L) :
    |1 / linearSchedule init fin L t - 1 / linearSchedule init fin L (t + 1)| ≤
      (init - fin) / (L * fin ^ 2) := by
  have hL : 0 < L := by omega
  have hL' : (0 : ℝ) < L := by exact_mod_cast hL
  have h1 := linear_schedule init fin h hf L t (t + 1) (by omega)
  have h2 := linear_schedule init fin h hf L (t + 1) (t + 1) le_rfl
  have e : linearSchedule init fin L t - linearSchedule init fin L (t + 1) = (init - fin) / L := by
    simp only [linearSchedule, hL.ne', if_false]
    rw [min_eq_left ht.le, min_eq_left (by omega : t + 1 ≤ L)]
    push_cast
    field_simp
    ring
  set u := linearSchedule init fin L t
  set v := linearSchedule init fin L (t + 1)
  have e2 : 1 / v - 1 / u = (init - fin) / L / (v * u) := by
    rw [← e]
    have := h1.1.ne'
    have := h2.1.ne'
    field_simp
  have hd : 0 ≤ (init - fin) / L := div_nonneg (by linarith) hL'.le
  rw [abs_sub_comm, e2, abs_of_nonneg (div_nonneg hd (mul_nonneg h2.1.le h1.1.le))]
  rw [div_div, div_le_div_iff₀ (by have := h1.1; have := h2.1; positivity) (by positivity)]
  refine mul_le_mul_of_nonneg_left ?_ (by linarith)
  refine mul_le_mul_of_nonneg_left ?_ hL'.le
  rw [pow_two]
  exact mul_le_mul h2.2.2.1 h1.2.2.1 hf.le h2.1.le

/-- **C109 (exponential schedule).** -/
theorem exp_drift {init fin rate : ℝ} (h : fin ≤ init) (hf : 0 < fin) (hr0 : 0 < rate) (hr1 : rate < 1)
    {L t : ℕ} (ht : t < L) :
    |1 / expSchedule init fin rate L t - 1 / expSchedule init fin rate L (t + 1)| ≤
      -Real.log rate / (L * max (init * rate) fin) := by
  have hL : 0 < L := by omega
  have hL' : (0 : ℝ) < L := by exact_mod_cast hL
  have hi : 0 < init := hf.trans_le h
  have h1 := exp_schedule init fin rate h hf hr0 hr1 L t (t + 1) (by omega)
  have h2 := exp_schedule init fin rate h hf hr0 hr1 L (t + 1) L (by omega)
  have hend : max (init * rate) fin ≤ expSchedule init fin rate L (t + 1) := by
    rw [← h1.2.2.2.2 hL]; exact h2.2.1
  have hstep : rate ^ ((1 : ℝ) / L) * expSchedule init fin rate L t ≤ expSchedule init fin rate L (t + 1) := by
    have hdec : ∀ t : ℕ, (if t = 0 then init else init * rate ^ ((t : ℝ) / L)) =
        init * rate ^ ((t : ℝ) / L) := by
      intro t
      split_ifs with h
      · simp [h]
      · rfl
    simp only [expSchedule, hL.ne', hr0.ne', or_self, if_false, hr1, if_true, hdec]
    have hp : 0 < rate ^ ((1 : ℝ) / L) := Real.rpow_pos_of_pos hr0 _
    have hp1 : rate ^ ((1 : ℝ) / L) ≤ 1 := Real.rpow_le_one hr0.le hr1.le (by positivity)
    rw [mul_max_of_nonneg _ _ hp.le]
    refine max_le_max ?_ (by nlinarith)
    refine le_of_eq ?_
    rw [mul_left_comm, ← Real.rpow_add hr0]
    congr 2
    push_cast
    field_simp
    ring
  set u := expSchedule init fin rate L t
  set v := expSchedule init fin rate L (t + 1)
  set m := max (init * rate) fin with hm
  have hm0 : 0 < m := lt_max_of_lt_right hf
  have hu := h1.1
  have hv := h2.1
  have e2 : 1 / v - 1 / u = (1 - v / u) / v := by
    have := hu.ne'
    have := hv.ne'
    field_simp
  have hvu : v / u ≤ 1 := by rw [div_le_one hu]; exact h1.2.1
  have hge : rate ^ ((1 : ℝ) / L) ≤ v / u := by rw [le_div_iff₀ hu]; exact hstep
  have hexp : 1 - rate ^ ((1 : ℝ) / L) ≤ -Real.log rate / L := by
    rw [Real.rpow_def_of_pos hr0]
    have := Real.add_one_le_exp (Real.log rate * (1 / L))
    have e : -Real.log rate / L = -(Real.log rate * (1 / L)) := by ring
    rw [e]; linarith
  rw [abs_sub_comm, e2, abs_of_nonneg (div_nonneg (by linarith) hv.le), ← div_div]
  exact div_le_div₀ (by linarith [hge]) (by linarith) hm0 hend

end Discs
