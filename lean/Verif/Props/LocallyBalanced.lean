import Verif.Lemmas.LocallyBalanced

/-!
# Properties C12, C30: balancing functions and one-hot encoding
-/

namespace Discs

open Finset Spec

/-! ## C12 -/

/-- The names accepted by both versions of the weight function. -/
def knownWeights : List String := ["SQRT", "RATIO", "MAX", "MIN"]

/-- C12 (errors): a name is accepted by both versions or rejected by both. -/
theorem applyWeight_error (name : String) (t : ℝ) :
    (name ∈ knownWeights → (∃ v, applyWeight name t = .ok v) ∧ ∃ v, applyWeightLog name t = .ok v) ∧
    (name ∉ knownWeights → (∃ e, applyWeight name t = .error e) ∧
      ∃ e, applyWeightLog name t = .error e) := by
  constructor
  · intro h
    simp only [knownWeights, List.mem_cons, List.not_mem_nil, or_false] at h
    rcases h with rfl | rfl | rfl | rfl <;> simp [applyWeight, applyWeightLog]
  · intro h
    simp only [knownWeights, List.mem_cons, List.not_mem_nil, or_false, not_or] at h
    simp [applyWeight, applyWeightLog, h]

/-- C12 (balance): `g t = t * g (1 / t)` for every accepted name and every `t > 0`. -/
theorem applyWeight_balanced {name : String} {t v w : ℝ} (ht : 0 < t)
    (hv : applyWeight name t = .ok v) (hw : applyWeight name (1 / t) = .ok w) : v = t * w := by
  unfold applyWeight at hv hw
  split_ifs at hv hw with h1 h2 h3 h4
  · injection hv with hv; injection hw with hw
    rw [← hv, ← hw, Real.sqrt_div zero_le_one, Real.sqrt_one, mul_one_div, eq_div_iff
      (Real.sqrt_pos.2 ht).ne', Real.mul_self_sqrt ht.le]
  · injection hv with hv; injection hw with hw
    rw [← hv, ← hw]
    have : (1 : ℝ) / t + 1 ≠ 0 := by positivity
    field_simp
    ring
  · injection hv with hv; injection hw with hw
    rw [← hv, ← hw]
    unfold clipMin
    rw [mul_max_of_nonneg _ _ ht.le, mul_one_div, div_self ht.ne', mul_one, max_comm]
  · injection hv with hv; injection hw with hw
    rw [← hv, ← hw]
    unfold clipMax
    rw [mul_min_of_nonneg _ _ ht.le, mul_one_div, div_self ht.ne', mul_one, min_comm]

/-- C12 (balance in log scale): `h s - h (-s) = s` for every accepted name and every `s`. -/
theorem applyWeightLog_balanced {name : String} {s v w : ℝ}
    (hv : applyWeightLog name s = .ok v) (hw : applyWeightLog name (-s) = .ok w) : v - w = s := by
  unfold applyWeightLog at hv hw
  split_ifs at hv hw with h1 h2 h3 h4
  · injection hv with hv; injection hw with hw
    rw [← hv, ← hw]; ring
  · injection hv with hv; injection hw with hw
    rw [← hv, ← hw]
    unfold logSigmoid
    rw [neg_neg, neg_sub_neg]
    have h : 1 + Real.exp s = Real.exp s * (1 + Real.exp (-s)) := by
      rw [mul_add, mul_one, ← Real.exp_add, add_neg_cancel, Real.exp_zero, add_comm]
    rw [h, Real.log_mul (Real.exp_pos _).ne' (by positivity), Real.log_exp]; ring
  · injection hv with hv; injection hw with hw
    rw [← hv, ← hw]
    unfold clipMin
    rcases le_total s 0 with h | h
    · rw [max_eq_right h, max_eq_left (by linarith)]; ring
    · rw [max_eq_left h, max_eq_right (by linarith)]; ring
  · injection hv with hv; injection hw with hw
    rw [← hv, ← hw]
    unfold clipMax
    rcases le_total s 0 with h | h
    · rw [min_eq_left h, min_eq_right (by linarith)]; ring
    · rw [min_eq_right h, min_eq_left (by linarith)]; ring

/-- C12 (agreement): the two versions agree, `h (log t) = log (g t)`. -/
theorem applyWeight_log {name : String} {t v w : ℝ} (ht : 0 < t)
    (hv : applyWeight name t = .ok v) (hw : applyWeightLog name (Real.log t) = .ok w) :
    w = Real.log v := by
  unfold applyWeight at hv
  unfold applyWeightLog at hw
  split_ifs at hv hw with h1 h2 h3 h4
  · injection hv with hv; injection hw with hw
    rw [← hv, ← hw, Real.log_sqrt ht.le]
  · injection hv with hv; injection hw with hw
    rw [← hv, ← hw]
    unfold logSigmoid
    rw [← Real.log_inv, Real.exp_neg, Real.exp_log ht]
    congr 1
    have : (1 : ℝ) + t⁻¹ ≠ 0 := by positivity
    field_simp
  · injection hv with hv; injection hw with hw
    rw [← hv, ← hw]
    unfold clipMin
    rcases le_total t 1 with h | h
    · rw [max_eq_right h, max_eq_right (Real.log_nonpos ht.le h), Real.log_one]
    · rw [max_eq_left h, max_eq_left (Real.log_nonneg h)]
  · injection hv with hv; injection hw with hw
    rw [← hv, ← hw]
    unfold clipMax
    rcases le_total t 1 with h | h
    · rw [min_eq_left h, min_eq_left (Real.log_nonpos ht.le h)]
    · rw [min_eq_right h, min_eq_right (Real.log_nonneg h), Real.log_one]

/-- Instance for C12: `MAX` at `t = 2` and `t = 1/2`. -/
example : applyWeight "MAX" 2 = .ok 2 ∧ applyWeight "MAX" (1 / 2) = .ok 1 ∧
    ∃ e, applyWeight "sqrt" 2 = .error e := by
  refine ⟨?_, ?_, ?_⟩
  · simp [applyWeight, clipMin]
  · simp [applyWeight, clipMin]; norm_num
  · exact ((applyWeight_error "sqrt" 2).2 (by decide)).1

/-! ## C30 -/

/-- C30: encoding a category as one-hot and taking argmax returns the category. -/
theorem argmax_oneHot_roundtrip {C : ℕ} {v : ℤ} (h0 : 0 ≤ v) (h1 : v < C) :
    argmax (oneHot C v) = v := argmax_oneHot h0 h1

/-- C30: a value outside the categories is encoded as all zeros and comes back as `0`: the result is
a category in every case. -/
theorem argmax_oneHot_outside {C : ℕ} (hC : 0 < C) {v : ℤ} (h : v < 0 ∨ (C : ℤ) ≤ v) :
    oneHot C v = 0 ∧ argmax (oneHot C v) = 0 := by
  have h0 : oneHot C v = 0 := by
    funext c
    have := c.2
    unfold oneHot
    rw [if_neg (by omega)]; rfl
  refine ⟨h0, ?_⟩
  rw [h0]
  unfold argmax
  obtain ⟨c, rfl⟩ : ∃ c, C = c + 1 := ⟨C - 1, by omega⟩
  simp [List.finRange_succ]

/-- C30: samplers working on one-hot rows return valid integer samples: selecting between two
encodings of valid samples and decoding gives one of the two samples. -/
theorem lbSelectCateg_row {B D C : ℕ} (tiny : ℝ) (u l : Fin B → ℝ) {x y : Fin B → Fin D → ℤ}
    (hx : ∀ b, x b ∈ validStates C D) (hy : ∀ b, y b ∈ validStates C D) (s : LBState) (b : Fin B) :
    (lbSelectCateg tiny u l (fun b => oneHotRow C (x b)) (fun b => oneHotRow C (y b)) s).1 b =
      (mhStep tiny u l x y).1 b ∧
    (lbSelectCateg tiny u l (fun b => oneHotRow C (x b)) (fun b => oneHotRow C (y b)) s).1 b ∈
      validStates C D := by
  have h : (lbSelectCateg tiny u l (fun b => oneHotRow C (x b)) (fun b => oneHotRow C (y b)) s).1 b =
      (mhStep tiny u l x y).1 b := by
    by_cases ha : bernoulliLogp tiny (u b) (l b)
    · simp only [lbSelectCateg]
      rw [mhStep_accept ha, mhStep_accept ha, argmaxRow_oneHotRow (hy b)]
    · simp only [lbSelectCateg]
      rw [mhStep_reject ha, mhStep_reject ha, argmaxRow_oneHotRow (hx b)]
  refine ⟨h, ?_⟩
  rw [h]
  by_cases ha : bernoulliLogp tiny (u b) (l b)
  · rw [mhStep_accept ha]; exact hy b
  · rw [mhStep_reject ha]; exact hx b

/-- Instance for C30. -/
example : argmax (oneHot 4 2) = 2 := argmax_oneHot_roundtrip (by norm_num) (by norm_num)

end Discs
