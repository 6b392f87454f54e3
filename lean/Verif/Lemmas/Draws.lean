import Verif.Model.MathUtil
import Verif.Spec.Draws
import Verif.Spec.Markov
import Mathlib.Data.List.OfFn
import Mathlib.Logic.Equiv.Fin.Basic

/-! # Helper lemmas: sampling without replacement -/

namespace Discs

open Finset Spec

/-! ## `log1mexp` and `renormalize` -/

theorem log1mexp_bot : log1mexp ⊥ = ((0 : ℝ) : WithBot ℝ) := rfl

theorem log1mexp_coe {r : ℝ} (hr : r ≠ 0) :
    log1mexp (r : WithBot ℝ) = ((Real.log (1 - Real.exp (-|r|)) : ℝ) : WithBot ℝ) := by
  have hlt : Real.exp (-|r|) < 1 := by
    rw [Real.exp_lt_one_iff]; have := abs_pos.2 hr; linarith
  have e1 : -(Real.exp (-|r|) - 1) = 1 - Real.exp (-|r|) := by ring
  have e2 : 1 + -Real.exp (-|r|) = 1 - Real.exp (-|r|) := by ring
  show (if -|r| > -0.693 then logE (-(Real.exp (-|r|) - 1)) else logE (1 + -Real.exp (-|r|))) = _
  rw [e1, e2, ite_self]
  unfold logE
  rw [if_neg (by linarith)]

theorem log1mexp_zero : log1mexp ((0 : ℝ) : WithBot ℝ) = ⊥ := by
  show (if -|(0 : ℝ)| > -0.693 then logE (-(Real.exp (-|(0 : ℝ)|) - 1)) else _) = _
  rw [if_pos (by norm_num)]
  simp [logE]

/-- `log1mexp` of the log of a mass `s < 1`. -/
theorem log1mexp_logE {s : ℝ} (h0 : 0 ≤ s) (h1 : s < 1) :
    log1mexp (logE s) = ((Real.log (1 - s) : ℝ) : WithBot ℝ) := by
  unfold logE
  split_ifs with h
  · rw [h, log1mexp_bot, sub_zero, Real.log_one]
  · have hs : 0 < s := lt_of_le_of_ne h0 (Ne.symm h)
    have hneg := Real.log_neg hs h1
    rw [log1mexp_coe hneg.ne, abs_of_neg hneg, neg_neg, Real.exp_log hs]

theorem expE_nonneg (a : WithBot ℝ) : 0 ≤ expE a := by
  cases a with
  | bot => exact le_rfl
  | coe r => exact (Real.exp_pos r).le

theorem expE_map_sub (a : WithBot ℝ) (b : ℝ) : expE (a.map (· - b)) = expE a * Real.exp (-b) := by
  cases a with
  | bot => show (0 : ℝ) = 0 * _; rw [zero_mul]
  | coe r =>
    show Real.exp (r - b) = Real.exp r * Real.exp (-b)
    rw [← Real.exp_add, sub_eq_add_neg]

/-- Closed form of one entry of `renormalize` when the entries are log-probabilities of total mass at
most one. -/
theorem renormalize_eq {n : ℕ} {ll : Fin n → WithBot ℝ} (hsum : ∑ j, expE (ll j) ≤ 1) {i : Fin n}
    {a : ℝ} (ha : ll i = (a : WithBot ℝ)) :
    renormalize ll i = ((a - Real.log (1 - ∑ j ∈ univ.filter (· < i), expE (ll j)) : ℝ) :
      WithBot ℝ) := by
  set s := ∑ j ∈ univ.filter (· < i), expE (ll j) with hs
  have hs0 : 0 ≤ s := Finset.sum_nonneg fun _ _ => expE_nonneg _
  have hsplit : ∑ j ∈ univ.filter (· ≤ i), expE (ll j) = s + expE (ll i) := by
    have : (univ.filter (· ≤ i) : Finset (Fin n)) = insert i (univ.filter (· < i)) := by
      ext j; simp [le_iff_lt_or_eq, or_comm]
    rw [this, Finset.sum_insert (by simp), add_comm]
  have hle : s + Real.exp a ≤ 1 := by
    have h1 : ∑ j ∈ univ.filter (· ≤ i), expE (ll j) ≤ ∑ j, expE (ll j) :=
      Finset.sum_le_sum_of_subset_of_nonneg (Finset.subset_univ _) fun _ _ _ => expE_nonneg _
    rw [hsplit, ha] at h1
    exact h1.trans hsum
  have hs1 : s < 1 := by linarith [Real.exp_pos a]
  unfold renormalize
  simp only
  set b := (univ.sup ll).unbotD 0
  have hdelta : (logE ((∑ j ∈ univ.filter (· ≤ i), expE ((ll j).map (· - b))) -
      expE ((ll i).map (· - b)))).map (· + b) = logE s := by
    simp only [expE_map_sub]
    rw [← Finset.sum_mul, hsplit]
    have : (s + expE (ll i)) * Real.exp (-b) - expE (ll i) * Real.exp (-b) = s * Real.exp (-b) := by
      ring
    rw [this]
    unfold logE
    by_cases h : s = 0
    · rw [h, zero_mul, if_pos rfl]; rfl
    · have : s * Real.exp (-b) ≠ 0 := mul_ne_zero h (Real.exp_pos _).ne'
      rw [if_neg this, if_neg h, WithBot.map_coe, Real.log_mul h (Real.exp_pos _).ne', Real.log_exp]
      congr 1; ring
  rw [hdelta, log1mexp_logE hs0 hs1, ha]
  show ((clipMax (a - Real.log (1 - s)) 0 : ℝ) : WithBot ℝ) = _
  congr 1
  unfold clipMax
  rw [min_eq_left]
  have : a ≤ Real.log (1 - s) := by
    rw [Real.le_log_iff_exp_le (by linarith)]; linarith
  linarith

/-! ## Sequential draws -/

section
variable {ι : Type*} [Fintype ι] [DecidableEq ι]

theorem seqDraw_nonneg {p : ι → ℝ} (hp : ∀ i, 0 ≤ p i) (used : Finset ι) (l : List ι) :
    0 ≤ seqDraw p used l := by
  induction l generalizing used with
  | nil => exact zero_le_one
  | cons i l ih =>
    refine mul_nonneg ?_ (ih _)
    split_ifs
    · exact le_rfl
    · exact div_nonneg (hp i) (Finset.sum_nonneg fun _ _ => hp _)

theorem seqDraw_ne_zero_iff {p : ι → ℝ} (hp : ∀ i, 0 < p i) (used : Finset ι) (l : List ι) :
    seqDraw p used l ≠ 0 ↔ l.Nodup ∧ ∀ i ∈ l, i ∉ used := by
  induction l generalizing used with
  | nil => simp [seqDraw]
  | cons i l ih =>
    simp only [seqDraw, mul_ne_zero_iff, ih, List.nodup_cons, List.mem_cons, forall_eq_or_imp,
      Finset.mem_insert, not_or]
    by_cases h : i ∈ used
    · simp [h]
    · have hpos : 0 < ∑ j ∈ univ \ used, p j :=
        Finset.sum_pos (fun j _ => hp j) ⟨i, by simp [h]⟩
      have : p i / ∑ j ∈ univ \ used, p j ≠ 0 := (div_pos (hp i) hpos).ne'
      simp only [h, if_false, this, ne_eq, not_false_eq_true, true_and]
      constructor
      · rintro ⟨h1, h2⟩
        exact ⟨⟨fun hi => (h2 i hi).1 rfl, h1⟩, fun a ha => (h2 a ha).2⟩
      · rintro ⟨⟨h1, h2⟩, h3⟩
        exact ⟨h2, fun a ha => ⟨fun e => h1 (e ▸ ha), h3 a ha⟩⟩

/-- The sequences of length `k` have total probability one as long as enough elements remain. -/
theorem sum_seqDraw {p : ι → ℝ} (hp : ∀ i, 0 < p i) (k : ℕ) (used : Finset ι)
    (hk : used.card + k ≤ Fintype.card ι) :
    ∑ ω : Fin k → ι, seqDraw p used (List.ofFn ω) = 1 := by
  induction k generalizing used with
  | zero => simp [seqDraw]
  | succ k ih =>
    rw [← (Fin.consEquiv (fun _ : Fin (k + 1) => ι)).sum_comp, Fintype.sum_prod_type]
    have : ∀ (i : ι) (ω : Fin k → ι), seqDraw p used (List.ofFn (Fin.consEquiv (fun _ => ι) (i, ω))) =
        (if i ∈ used then 0 else p i / ∑ j ∈ univ \ used, p j) *
          seqDraw p (insert i used) (List.ofFn ω) := by
      intro i ω
      rw [List.ofFn_succ]
      rfl
    simp only [this, ← Finset.mul_sum]
    have hne : (univ \ used).Nonempty := by
      rw [← Finset.card_pos, Finset.card_sdiff_of_subset (Finset.subset_univ _), Finset.card_univ]
      omega
    have hZ : 0 < ∑ j ∈ univ \ used, p j := Finset.sum_pos (fun j _ => hp j) hne
    calc ∑ i, (if i ∈ used then 0 else p i / ∑ j ∈ univ \ used, p j) *
          ∑ ω : Fin k → ι, seqDraw p (insert i used) (List.ofFn ω)
        = ∑ i, if i ∈ univ \ used then p i / ∑ j ∈ univ \ used, p j else 0 := by
          refine Finset.sum_congr rfl fun i _ => ?_
          by_cases h : i ∈ used
          · simp [h]
          · rw [ih (insert i used) (by rw [Finset.card_insert_of_notMem h]; omega)]
            simp [h]
      _ = 1 := by
          rw [Finset.sum_ite_mem, Finset.univ_inter, ← Finset.sum_div, div_self hZ.ne']

theorem isProb_seqDraw {p : ι → ℝ} (hp : ∀ i, 0 < p i) {k : ℕ} (hk : k ≤ Fintype.card ι) :
    IsProb fun ω : Fin k → ι => seqDraw p ∅ (List.ofFn ω) :=
  ⟨fun _ => seqDraw_nonneg (fun i => (hp i).le) _ _, sum_seqDraw hp k ∅ (by simpa using hk)⟩

/-- Product form of `seqDraw` for an injective sequence. -/
theorem seqDraw_ofFn {p : ι → ℝ} (hp1 : ∑ i, p i = 1) {k : ℕ} {ω : Fin k → ι}
    (hω : Function.Injective ω) (used : Finset ι) (hu : ∀ i, ω i ∉ used) :
    seqDraw p used (List.ofFn ω) =
      ∏ i, p (ω i) / (1 - ∑ j ∈ used, p j - ∑ j ∈ univ.filter (· < i), p (ω j)) := by
  induction k generalizing used with
  | zero => simp [seqDraw]
  | succ k ih =>
    rw [List.ofFn_succ, Fin.prod_univ_succ]
    unfold seqDraw
    rw [if_neg (hu 0)]
    congr 1
    · have : (univ.filter (· < (0 : Fin (k + 1)))) = ∅ := by
        ext j; simp
      rw [this, Finset.sum_empty, sub_zero]
      congr 1
      rw [← hp1, ← Finset.sum_sdiff (Finset.subset_univ used)]; ring
    · rw [ih (ω := fun i => ω i.succ) (fun a b h => Fin.succ_injective _ (hω h)) (insert (ω 0) used)]
      · refine Finset.prod_congr rfl fun i _ => ?_
        congr 1
        rw [Finset.sum_insert (hu 0)]
        have : (univ.filter (· < i.succ) : Finset (Fin (k + 1))) =
            insert 0 ((univ.filter (· < i)).map (Fin.succEmb k)) := by
          ext j
          refine Fin.cases ?_ (fun j => ?_) j
          · simp
          · simp [Fin.succ_ne_zero]
        rw [this, Finset.sum_insert (by simp [Fin.succ_ne_zero]), Finset.sum_map]
        simp only [Fin.coe_succEmb]
        ring
      · intro i hi
        rw [Finset.mem_insert] at hi
        rcases hi with hi | hi
        · exact absurd (hω hi) (Fin.succ_ne_zero i)
        · exact hu _ hi

end

/-- For log-probabilities `lp` of a positive distribution and distinct indices in draw order, the
entries of `renormalize` are finite and their sum is the log of the sequential draw probability. -/
theorem renormalize_sum {ι : Type*} [Fintype ι] [DecidableEq ι] {p : ι → ℝ} (hp : ∀ i, 0 < p i)
    (hp1 : ∑ i, p i = 1) {k : ℕ} {ω : Fin k → ι} (hω : Function.Injective ω) :
    ∃ r : Fin k → ℝ,
      (renormalize fun i => ((Real.log (p (ω i)) : ℝ) : WithBot ℝ)) = (fun i => ((r i : ℝ) : WithBot ℝ)) ∧
      Real.exp (∑ i, r i) = seqDraw p ∅ (List.ofFn ω) := by
  have hexp : ∀ i, expE ((Real.log (p (ω i)) : ℝ) : WithBot ℝ) = p (ω i) :=
    fun i => Real.exp_log (hp _)
  have hsum : ∑ j, expE ((Real.log (p (ω j)) : ℝ) : WithBot ℝ) ≤ 1 := by
    simp only [hexp]
    rw [← hp1]
    have e : ∑ x, p (ω x) = ∑ y ∈ univ.map ⟨ω, hω⟩, p y := by rw [Finset.sum_map]; rfl
    rw [e]
    exact Finset.sum_le_sum_of_subset_of_nonneg (Finset.subset_univ _) fun i _ _ => (hp i).le
  refine ⟨fun i => Real.log (p (ω i)) - Real.log (1 - ∑ j ∈ univ.filter (· < i), p (ω j)), ?_, ?_⟩
  · funext i
    rw [renormalize_eq hsum rfl]
    simp only [hexp]
  · rw [seqDraw_ofFn hp1 hω ∅ (by simp), Real.exp_sum]
    refine Finset.prod_congr rfl fun i _ => ?_
    have hpos : 0 < 1 - ∑ j ∈ univ.filter (· < i), p (ω j) := by
      have h1 : ∑ j ∈ univ.filter (· < i), p (ω j) + p (ω i) ≤ ∑ j, p (ω j) := by
        rw [add_comm, ← Finset.sum_insert (f := fun j => p (ω j)) (by simp : i ∉ univ.filter (· < i))]
        exact Finset.sum_le_sum_of_subset_of_nonneg (Finset.subset_univ _) fun i _ _ => (hp _).le
      simp only [hexp] at hsum
      linarith [hp (ω i)]
    rw [Real.exp_sub, Real.exp_log (hp _), Real.exp_log hpos, Finset.sum_empty, sub_zero]

end Discs
