import Mathlib.MeasureTheory.Integral.Marginal
import Mathlib.Analysis.SpecialFunctions.Integrals.Basic
import Mathlib.Analysis.SpecialFunctions.Pow.Real
import Verif.Lemmas.Draws
import Verif.Spec.Noise

/-!
# Exponential race

`V i = u i ^ (1 / p i)` with `u i` uniform has distribution function `v ^ p i`; the elements ordered by `V`, largest
first, come out as sequential draws without replacement with weights `p`.
-/

namespace Discs

open MeasureTheory Finset Spec

open Set (Ioo indicator_of_mem indicator_of_notMem indicator mem_ofPred_eq)

variable {ι : Type*} [Fintype ι] [DecidableEq ι]

/-- `l` is the order, best first, of the largest entries among the coordinates not in `used`, all of
which are below `v`. -/
def Race (p : ι → ℝ) : Finset ι → List ι → ℝ → (ι → ℝ) → Prop
  | used, [], v, x => ∀ j ∉ used, x j ^ (1 / p j) < v
  | used, i :: l, v, x => i ∉ used ∧ x i ^ (1 / p i) < v ∧ Race p (insert i used) l (x i ^ (1 / p i)) x

omit [Fintype ι] [DecidableEq ι] in
theorem measurable_rpow_coord (p : ι → ℝ) (i : ι) : Measurable fun x : ι → ℝ => x i ^ (1 / p i) :=
  (measurable_pi_apply i).pow_const _

theorem measurableSet_race (p : ι → ℝ) (l : List ι) : ∀ (used : Finset ι) (v : (ι → ℝ) → ℝ), Measurable v →
    MeasurableSet {x | Race p used l (v x) x} := by
  induction l with
  | nil =>
    intro used v hv
    have : {x | Race p used [] (v x) x} = ⋂ j, ⋂ (_ : j ∉ used), {x | x j ^ (1 / p j) < v x} := by
      ext x; simp [Race]
    rw [this]
    exact .iInter fun j => .iInter fun _ => measurableSet_lt (measurable_rpow_coord p j) hv
  | cons i l ih =>
    intro used v hv
    by_cases hi : i ∈ used
    · have : {x | Race p used (i :: l) (v x) x} = ∅ := by ext x; simp [Race, hi]
      rw [this]; exact .empty
    · have : {x | Race p used (i :: l) (v x) x} = {x | x i ^ (1 / p i) < v x} ∩
          {x | Race p (insert i used) l (x i ^ (1 / p i)) x} := by ext x; simp [Race, hi]
      rw [this]
      exact (measurableSet_lt (measurable_rpow_coord p i) hv).inter (ih _ _ (measurable_rpow_coord p i))

/-- Uniform on the open interval. -/
noncomputable abbrev unif (_ : ι) : Measure ℝ := volume.restrict (Ioo (0 : ℝ) 1)

theorem rpow_lt_iff {q v w : ℝ} (hq : 0 < q) (hv : 0 ≤ v) (hw : 0 ≤ w) : w ^ (1 / q) < v ↔ w < v ^ q := by
  rw [← Real.rpow_lt_rpow_iff (Real.rpow_nonneg hw _) hv hq, ← Real.rpow_mul hw,
    one_div_mul_cancel hq.ne', Real.rpow_one]

theorem race_integral {q P v c : ℝ} (hq : 0 < q) (hP : 0 ≤ P) (hv : 0 < v) (hv1 : v ≤ 1) (hc : 0 ≤ c) :
    ∫⁻ w in Ioo (0 : ℝ) 1, (if w ^ (1 / q) < v then ENNReal.ofReal ((w ^ (1 / q)) ^ P * c) else 0) =
      ENNReal.ofReal (v ^ (q + P) * (q / (q + P) * c)) := by
  have hvq : v ^ q ≤ 1 := Real.rpow_le_one hv.le hv1 hq.le
  have hvq0 : 0 < v ^ q := Real.rpow_pos_of_pos hv q
  have h1 : ∫⁻ w in Ioo (0 : ℝ) 1, (if w ^ (1 / q) < v then ENNReal.ofReal ((w ^ (1 / q)) ^ P * c) else 0) =
      ∫⁻ w in Ioo (0 : ℝ) 1, (Ioo 0 (v ^ q)).indicator (fun w => ENNReal.ofReal (w ^ (P / q) * c)) w := by
    refine setLIntegral_congr_fun measurableSet_Ioo fun w hw => ?_
    by_cases h : w ^ (1 / q) < v
    · have h' := (rpow_lt_iff hq hv.le hw.1.le).1 h
      simp only [if_pos h, indicator_of_mem (show w ∈ Ioo 0 (v ^ q) from ⟨hw.1, h'⟩)]
      rw [← Real.rpow_mul hw.1.le, one_div_mul_eq_div]
    · have h' : w ∉ Ioo 0 (v ^ q) := fun h'' => h ((rpow_lt_iff hq hv.le hw.1.le).2 h''.2)
      simp only [if_neg h, indicator_of_notMem h']
  rw [h1, lintegral_indicator measurableSet_Ioo, Measure.restrict_restrict measurableSet_Ioo,
    Set.inter_eq_left.2 (Set.Ioo_subset_Ioo_right hvq)]
  have hr : -1 < P / q := by have : 0 ≤ P / q := by positivity
                             linarith
  have hint : IntegrableOn (fun w : ℝ => w ^ (P / q) * c) (Ioo 0 (v ^ q)) := by
    have := (intervalIntegral.intervalIntegrable_rpow' (a := 0) (b := v ^ q) hr).mul_const c
    rw [intervalIntegrable_iff_integrableOn_Ioo_of_le hvq0.le] at this
    exact this
  rw [← ofReal_integral_eq_lintegral_ofReal hint]
  · congr 1
    rw [← integral_Ioc_eq_integral_Ioo, ← intervalIntegral.integral_of_le hvq0.le,
      intervalIntegral.integral_mul_const, integral_rpow (.inl hr)]
    have hne : P / q + 1 ≠ 0 := by linarith
    have hqP : q + P ≠ 0 := by positivity
    rw [Real.zero_rpow hne, ← Real.rpow_mul hv.le, sub_zero]
    have : q * (P / q + 1) = q + P := by field_simp; ring
    rw [this]
    field_simp
    ring
  · refine (ae_restrict_iff' measurableSet_Ioo).2 (.of_forall fun w hw => ?_)
    exact mul_nonneg (Real.rpow_nonneg hw.1.le _) hc

theorem unif_lt {q v : ℝ} (hq : 0 < q) (hv : 0 < v) (hv1 : v ≤ 1) :
    volume.restrict (Ioo (0 : ℝ) 1) {w | w ^ (1 / q) < v} = ENNReal.ofReal (v ^ q) := by
  have hm : MeasurableSet {w : ℝ | w ^ (1 / q) < v} :=
    measurableSet_lt (measurable_id.pow_const _) measurable_const
  have hvq : v ^ q ≤ 1 := Real.rpow_le_one hv.le hv1 hq.le
  rw [Measure.restrict_apply hm]
  have : {w : ℝ | w ^ (1 / q) < v} ∩ Ioo 0 1 = Ioo 0 (v ^ q) := by
    ext w
    constructor
    · rintro ⟨h, h0, -⟩
      exact ⟨h0, (rpow_lt_iff hq hv.le h0.le).1 h⟩
    · rintro ⟨h0, h⟩
      exact ⟨(rpow_lt_iff hq hv.le h0.le).2 h, h0, h.trans_le hvq⟩
  rw [this, Real.volume_Ioo, sub_zero]

theorem race_nil {p : ι → ℝ} (hp : ∀ i, 0 < p i) {v : ℝ} (hv : 0 < v) (hv1 : v ≤ 1) (used : Finset ι)
    (x : ι → ℝ) :
    (∫⋯∫⁻_(univ \ used), ({x | Race p used [] v x}.indicator 1) ∂unif) x =
      ENNReal.ofReal (v ^ (∑ j ∈ univ \ used, p j)) := by
  unfold lmarginal
  have h1 : ∀ y : (i : (univ \ used : Finset ι)) → ℝ,
      ({x | Race p used [] v x}.indicator 1 (Function.updateFinset x (univ \ used) y) : ENNReal) =
        (Set.univ.pi fun j : (univ \ used : Finset ι) => {w : ℝ | w ^ (1 / p j) < v}).indicator 1 y := by
    intro y
    have : Function.updateFinset x (univ \ used) y ∈ {x | Race p used [] v x} ↔
        y ∈ Set.univ.pi fun j : (univ \ used : Finset ι) => {w : ℝ | w ^ (1 / p j) < v} := by
      simp only [Race, mem_ofPred_eq, Set.mem_univ_pi, Subtype.forall, Finset.mem_sdiff, Finset.mem_univ,
        true_and]
      refine forall_congr' fun j => forall_congr' fun hj => ?_
      simp [Function.updateFinset, hj]
    by_cases h : y ∈ Set.univ.pi fun j : (univ \ used : Finset ι) => {w : ℝ | w ^ (1 / p j) < v}
    · rw [indicator_of_mem h, indicator_of_mem (this.2 h)]; rfl
    · rw [indicator_of_notMem h, indicator_of_notMem (fun h' => h (this.1 h'))]
  rw [lintegral_congr h1, lintegral_indicator_one]
  · rw [Measure.pi_pi]
    simp only [unif_lt (hp _) hv hv1]
    rw [← ENNReal.ofReal_prod_of_nonneg (fun _ _ => Real.rpow_nonneg hv.le _)]
    congr 1
    rw [Finset.prod_coe_sort (univ \ used) (fun j => v ^ p j), Real.rpow_sum_of_pos hv]
  · exact .univ_pi fun j => measurableSet_lt (measurable_id.pow_const _) measurable_const

theorem race_prob {p : ι → ℝ} (hp : ∀ i, 0 < p i) (l : List ι) : ∀ (used : Finset ι) (v : ℝ), 0 < v → v ≤ 1 →
    ∀ x : ι → ℝ, (∫⋯∫⁻_(univ \ used), ({x | Race p used l v x}.indicator 1) ∂unif) x =
      ENNReal.ofReal (v ^ (∑ j ∈ univ \ used, p j) * seqDraw p used l) := by
  induction l with
  | nil =>
    intro used v hv hv1 x
    rw [race_nil hp hv hv1]
    simp [seqDraw]
  | cons i l ih =>
    intro used v hv hv1 x
    by_cases hi : i ∈ used
    · have : {x | Race p used (i :: l) v x} = ∅ := by ext x; simp [Race, hi]
      rw [this]
      simp [seqDraw, hi, lmarginal]
    · have hins : univ \ used = insert i (univ \ insert i used) := by
        ext j; simp only [Finset.mem_sdiff, Finset.mem_univ, true_and, Finset.mem_insert]
        by_cases h : j = i
        · simp [h, hi]
        · simp [h]
      have hni : i ∉ univ \ insert i used := by simp
      have hm : Measurable ({x | Race p used (i :: l) v x}.indicator (1 : (ι → ℝ) → ENNReal)) :=
        measurable_one.indicator (measurableSet_race p _ used (fun _ => v) measurable_const)
      rw [hins, lmarginal_insert _ hm hni, sum_insert hni]
      have hstep : ∀ w ∈ Ioo (0 : ℝ) 1,
          (∫⋯∫⁻_(univ \ insert i used), ({x | Race p used (i :: l) v x}.indicator 1) ∂unif)
            (Function.update x i w) =
          if w ^ (1 / p i) < v then ENNReal.ofReal ((w ^ (1 / p i)) ^ (∑ j ∈ univ \ insert i used, p j) *
            seqDraw p (insert i used) l) else 0 := by
        intro w hw
        have hwi : ∀ y : (j : (univ \ insert i used : Finset ι)) → ℝ,
            Function.updateFinset (Function.update x i w) (univ \ insert i used) y i = w := by
          intro y; simp [Function.updateFinset]
        split_ifs with hlt
        · rw [← ih (insert i used) (w ^ (1 / p i)) (Real.rpow_pos_of_pos hw.1 _)
            (hlt.le.trans hv1) (Function.update x i w)]
          unfold lmarginal
          refine lintegral_congr fun y => ?_
          have : Function.updateFinset (Function.update x i w) (univ \ insert i used) y ∈
              {x | Race p used (i :: l) v x} ↔
              Function.updateFinset (Function.update x i w) (univ \ insert i used) y ∈
                {x | Race p (insert i used) l (w ^ (1 / p i)) x} := by
            simp only [mem_ofPred_eq, Race, hwi, hi, not_false_eq_true, true_and, hlt]
          by_cases h : Function.updateFinset (Function.update x i w) (univ \ insert i used) y ∈
              {x | Race p used (i :: l) v x}
          · exact (indicator_of_mem h _).trans (indicator_of_mem (this.1 h) _).symm
          · exact (indicator_of_notMem h _).trans (indicator_of_notMem (fun h' => h (this.2 h')) _).symm
        · unfold lmarginal
          refine (lintegral_congr fun y => ?_).trans lintegral_zero
          refine indicator_of_notMem ?_ _
          simp only [mem_ofPred_eq, Race, hwi, hlt, false_and, and_false, not_false_eq_true]
      rw [setLIntegral_congr_fun measurableSet_Ioo hstep,
        race_integral (hp i) (sum_nonneg fun j _ => (hp j).le) hv hv1 (seqDraw_nonneg (fun j => (hp j).le) _ l)]
      congr 2
      rw [seqDraw, if_neg hi, hins, sum_insert hni]

omit [DecidableEq ι] in
theorem noise_eq : noise ι = Measure.pi unif := by
  unfold noise unif
  simp only [Measure.restrict_congr_set Ioo_ae_eq_Ico]

/-- Probability that the race ends in the order `l`. -/
theorem race_total {p : ι → ℝ} (hp : ∀ i, 0 < p i) (l : List ι) :
    noise ι {x | Race p ∅ l 1 x} = ENNReal.ofReal (seqDraw p ∅ l) := by
  have h := race_prob hp l ∅ 1 one_pos le_rfl (fun _ => 0)
  rw [sdiff_empty, lmarginal_univ] at h
  rw [noise_eq, ← lintegral_indicator_one (measurableSet_race p l ∅ (fun _ => 1) measurable_const)]
  refine h.trans ?_
  simp

end Discs
