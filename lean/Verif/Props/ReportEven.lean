import Verif.Lemmas.ReportExact
import Verif.Props.AnnealSchedule
import Verif.Props.Gradient

/-!
# Property C116: one flip per step and an even log interval

A step that is not rejected changes the parity of a sample.  If only every second step is logged, samples of one parity
show up at logged steps only after a rejection.  With scores that are exact differences the acceptance ratio is a ratio of
normalisers, and some move is rejected unless all samples are equally good.
-/

namespace Discs

open Finset Spec Filter

variable {D B : ℕ}

/-- **C116 (GWG, one draw, samples kept).** One draw per step and any log interval, if in every stretch of `2D + 1 + e`
steps some sample is kept with probability `ρ` or more. -/
theorem gwg_reports_one_holding [NeZero B] (hD : 0 < D) {name : String} {h : ℝ → ℝ}
    (hh : ∀ v, applyWeightLog name v = .ok (h v)) (obj pen : (Fin D → ℤ) → ℝ) {g : (Fin D → ℤ) → Fin D → ℝ}
    (temp : ℕ → ℝ) (s : ℕ → LBState) {R G Tm tiny ρ a : ℝ} (ht : 0 ≤ tiny)
    (hR : ∀ x ∈ validStates 2 D, ∀ y ∈ validStates 2 D, (obj x - pen x) - (obj y - pen y) ≤ R)
    (hG : ∀ x ∈ validStates 2 D, ∀ j, |g x j| ≤ G) (hTm : 0 < Tm) (L : ℕ) (hlow : ∀ t < L, Tm ≤ temp (t + 1))
    (ha0 : 0 ≤ a) (ha1 : a ≤ 1) (hδ : a ≤ Real.exp (-(2 * G / Tm)) / D * Real.exp (-(R / Tm)) - tiny) (hρ : a ≤ ρ)
    {ref : ℝ} (href : 0 < ref) {logEvery : ℕ} (he : 0 < logEvery)
    (hkeep : ∀ t, ∃ x ∈ validStates 2 D, ∀ i < 2 * D + 1 + logEvery, t + i < L →
      ρ ≤ gwgAnneal 1 tiny h obj pen g temp s (t + i) x x)
    {ratio : ℝ} (h0 : 0 ≤ ratio) (h1 : ratio ≤ 1) (zero : Fin D → ℤ) {z : Fin D → ℤ}
    (hz : z ∈ validStates 2 D) {x : Fin B → Fin D → ℤ} (hx : x ∈ prodStates B (validStates 2 D)) :
    let M := 2 * D + 1 + logEvery
    shortfall (validStates 2 D) (gwgAnnealBatch 1 tiny h obj pen g temp s) (fun x => obj x - pen x)
        (fun t => temp t.toNat) ref logEvery L ratio zero x z ≤ ((1 - a ^ M) ^ (L / M)) ^ B := by
  intro M
  obtain ⟨y, hy, hopt⟩ := exists_optimum (E := fun x => obj x - pen x) hz
  have hflip : ∀ {v : Fin D → ℤ} (_ : v ∈ validStates 2 D) (i : Fin D), siteFlip v (oneFlip v i) := by
    intro v hv i
    refine ⟨i, ?_, fun j hj => Function.update_of_ne hj _ _⟩
    unfold oneFlip
    rw [Function.update_self]
    have := mem_validStates_two.1 hv i
    omega
  refine shortfall_le (K := gwgAnneal 1 tiny h obj pen g temp s) (fun t => gwg_stochastic hD 1 ht h _ _ none (s t))
    (fun t x y => gwgBinary_batch 1 tiny h _ _ none (s t) x y)
    (R := fun t a b => siteFlip a b ∨ a = b ∧ (t < L → ρ ≤ gwgAnneal 1 tiny h obj pen g temp s t a a)) ha0 ha1 ?_
    (fun t x hx => reaches_hold (m := D) (H := fun t a => t < L → ρ ≤ gwgAnneal 1 tiny h obj pen g temp s t a a)
      he hy hopt ?_ (fun x hx z hz => siteFlip_walk hx hz) hkeep t hx) href h0 h1 _ zero hz hx
  · rintro t htL v hv b hb (⟨i, hi, hj⟩ | ⟨rfl, hk⟩)
    · have := gwgAnneal_move_ge (k := 1) hD hh s ht hR hG hTm (hlow t htL) hv hb (fun e => hi (by rw [e])) _
        (gwgPropose_site one_pos hv hb hi hj)
      rw [pow_one] at this
      exact hδ.trans this
    · exact hρ.trans (hk htL)
  · have h1 := hflip hy ⟨0, hD⟩
    have h2 := hflip (oneFlip_valid hy ⟨0, hD⟩) ⟨0, hD⟩
    rw [oneFlip_oneFlip] at h2
    exact (Walk.single hy h1).snoc (oneFlip_valid hy ⟨0, hD⟩) h2

/-- **C116 (GWG, one draw, any log interval).** With exact scores and temperatures that vary slowly, the probability that a
run of `L` steps of `B` chains reports less than the optimum shrinks geometrically in `L` and in `B`, whatever the parity
of the log interval. -/
theorem gwg_reports_one_any (hD : 0 < D) {name : String} {h : ℝ → ℝ} (hh : ∀ v, applyWeightLog name v = .ok (h v))
    (obj pen : (Fin D → ℤ) → ℝ) {g : (Fin D → ℤ) → Fin D → ℝ} (hg : ExactGrad (fun x => obj x - pen x) g)
    {R G Tm TM tiny : ℝ} (ht : 0 ≤ tiny)
    (hR : ∀ x ∈ validStates 2 D, ∀ y ∈ validStates 2 D, (obj x - pen x) - (obj y - pen y) ≤ R)
    (hG : ∀ x ∈ validStates 2 D, ∀ j, |g x j| ≤ G) (hTm : 0 < Tm) (hTM : Tm ≤ TM)
    (hδ : tiny < Real.exp (-(2 * G / Tm)) / D * Real.exp (-(R / Tm))) :
    ∃ η > 0, ∃ a, 0 < a ∧ a ≤ 1 ∧ ∀ {B : ℕ} [NeZero B] (temp : ℕ → ℝ) (s : ℕ → LBState) (L : ℕ),
      (∀ t < L, Tm ≤ temp (t + 1) ∧ temp (t + 1) ≤ TM) → ∀ {logEvery : ℕ}, 0 < logEvery →
      (∀ t i, i < 2 * D + 1 + logEvery → t + i < L → |1 / temp (t + i + 1) - 1 / temp (t + 1)| ≤ η) →
      ∀ {ref : ℝ}, 0 < ref → ∀ {ratio : ℝ}, 0 ≤ ratio → ratio ≤ 1 → ∀ (zero : Fin D → ℤ), ∀ z ∈ validStates 2 D,
      ∀ x ∈ prodStates B (validStates 2 D),
        let M := 2 * D + 1 + logEvery
        shortfall (validStates 2 D) (gwgAnnealBatch 1 tiny h obj pen g temp s) (fun x => obj x - pen x)
          (fun t => temp t.toNat) ref logEvery L ratio zero x z ≤ ((1 - a ^ M) ^ (L / M)) ^ B := by
  have hz0 : (fun _ => 0 : Fin D → ℤ) ∈ validStates 2 D := mem_validStates_two.2 fun _ => Or.inl rfl
  have hp1 : Real.exp (-(2 * G / Tm)) / D ≤ 1 := gwgFloor_le_one hD (gwgGrad_nonneg hD hG) hTm
  have hR0 : 0 ≤ R := by have := hR _ hz0 _ hz0; linarith
  have hr1 : Real.exp (-(R / Tm)) ≤ 1 := Real.exp_le_one_iff.2 (by have := div_nonneg hR0 hTm.le; linarith)
  have hδ1 : Real.exp (-(2 * G / Tm)) / D * Real.exp (-(R / Tm)) - tiny ≤ 1 := by
    have := mul_le_one₀ hp1 (Real.exp_pos (-(R / Tm))).le hr1
    linarith
  by_cases hflat : ∀ y ∈ validStates 2 D, obj y - pen y = obj (fun _ => 0) - pen (fun _ => 0)
  · refine ⟨1, one_pos, _, sub_pos.2 hδ, hδ1, ?_⟩
    intro B _ temp s L hT logEvery he _ ref href ratio h0 h1 zero z hz x hx M
    refine shortfall_le (K := gwgAnneal 1 tiny h obj pen g temp s) (fun t => gwg_stochastic hD 1 ht h _ _ none (s t))
      (fun t x y => gwgBinary_batch 1 tiny h _ _ none (s t) x y)
      (R := fun _ a b => siteFlip a b) (sub_pos.2 hδ).le hδ1 ?_ ?_ href h0 h1 _ zero hz hx
    · rintro t htL v hv b hb ⟨i, hi, hj⟩
      have := gwgAnneal_move_ge (k := 1) hD hh s ht hR hG hTm (hT t htL).1 hv hb (fun e => hi (by rw [e])) _
        (gwgPropose_site one_pos hv hb hi hj)
      rwa [pow_one] at this
    · intro t v hv
      obtain ⟨k, -, hk2, hk3⟩ := exists_logged he t (2 * D + 1)
      have hall : ∀ y ∈ validStates 2 D, y ∈ optima (validStates 2 D) fun x => obj x - pen x := fun y hy =>
        mem_optima.2 ⟨hy, fun w hw => by rw [hflat y hy, hflat w hw]⟩
      have hwalk : ∀ n, ∃ y ∈ validStates 2 D, Walk (validStates 2 D) siteFlip n v y := by
        intro n
        induction n with
        | zero => exact ⟨v, hv, rfl⟩
        | succ n ih =>
          obtain ⟨y, hy, w⟩ := ih
          refine ⟨oneFlip y ⟨0, hD⟩, oneFlip_valid hy _, w.snoc hy ⟨⟨0, hD⟩, ?_, fun j hj => Function.update_of_ne hj _ _⟩⟩
          unfold oneFlip
          rw [Function.update_self]
          have := mem_validStates_two.1 hy ⟨0, hD⟩
          omega
      obtain ⟨y, hy, w⟩ := hwalk (k + 1)
      exact Reaches.mono hk2 hv (reaches_of_walk hy (hall y hy) k t v hv w hk3)
  · push Not at hflat
    obtain ⟨z', hz', hne⟩ := hflat
    have hTM0 : 0 < TM := hTm.trans_le hTM
    obtain ⟨c, hc, hinc⟩ := exists_increase hD hh (E := fun x => obj x - pen x) hz' hz0 hne (one_div_pos.2 hTM0)
    have hq0 : 0 < Real.exp (-(2 * G / Tm)) / D := by
      have : (0 : ℝ) < D := by exact_mod_cast hD
      positivity
    have hρ0 : 0 < Real.exp (-(2 * G / Tm)) / D * (1 - Real.exp (-(c / 2))) :=
      mul_pos hq0 (sub_pos.2 (Real.exp_lt_one_iff.2 (by linarith)))
    refine ⟨c / (4 * (R + 1)), by positivity, min (Real.exp (-(2 * G / Tm)) / D * Real.exp (-(R / Tm)) - tiny)
      (Real.exp (-(2 * G / Tm)) / D * (1 - Real.exp (-(c / 2)))), lt_min (sub_pos.2 hδ) hρ0,
      (min_le_left _ _).trans hδ1, ?_⟩
    intro B _ temp s L hT logEvery he hslow ref href ratio h0 h1 zero z hz x hx
    refine gwg_reports_one_holding hD hh obj pen temp s ht hR hG hTm L (fun t h => (hT t h).1)
      (lt_min (sub_pos.2 hδ) hρ0).le ((min_le_left _ _).trans hδ1) (min_le_left _ _) (min_le_right _ _) href he
      ?_ h0 h1 zero hz hx
    intro t
    by_cases htL : t < L
    · obtain ⟨v, hv, i, hi⟩ := hinc (1 / temp (t + 1)) (one_div_le_one_div_of_le (hTm.trans_le (hT t htL).1) (hT t htL).2)
      refine ⟨v, hv, fun l hl hlL => gwg_one_hold hh hg s ht hG hTm (hT _ hlL).1 hv (i := i) (by linarith) ?_⟩
      have hrange : ∀ w ∈ validStates 2 D, ∀ j, |(obj (oneFlip w j) - pen (oneFlip w j)) - (obj w - pen w)| ≤ R :=
        fun w hw j => abs_le.2 ⟨by have := hR w hw _ (oneFlip_valid hw j); linarith, hR _ (oneFlip_valid hw j) w hw⟩
      have e1 := flipMass_le_add hh (E := fun x => obj x - pen x) (hrange v hv) hD (1 / temp (t + l + 1)) (1 / temp (t + 1))
      have e2 := flipMass_le_add hh (E := fun x => obj x - pen x) (hrange _ (oneFlip_valid hv i)) hD (1 / temp (t + 1))
        (1 / temp (t + l + 1))
      rw [abs_sub_comm] at e2
      have e3 : R * |1 / temp (t + l + 1) - 1 / temp (t + 1)| ≤ c / 4 := by
        refine (mul_le_mul_of_nonneg_left (hslow t l hl hlL) hR0).trans ?_
        rw [mul_div_assoc', div_le_div_iff₀ (by positivity) (by norm_num)]
        nlinarith
      linarith
    · exact ⟨z, hz, fun l _ hlL => absurd hlL (by omega)⟩

/-! ## Long runs with the schedules of the experiment -/

theorem window_drift {temp : ℕ → ℝ} {d : ℝ} {L : ℕ} (hd : ∀ t < L, |1 / temp t - 1 / temp (t + 1)| ≤ d) (t : ℕ) :
    ∀ i, t + i < L → |1 / temp (t + i + 1) - 1 / temp (t + 1)| ≤ i * d := by
  intro i
  induction i with
  | zero => intro _; simp
  | succ i ih =>
    intro hi
    have h1 := ih (by omega)
    have h2 := hd (t + i + 1) (by omega)
    rw [abs_sub_comm] at h2
    have h3 := abs_sub_le (1 / temp (t + i + 1 + 1)) (1 / temp (t + i + 1)) (1 / temp (t + 1))
    push_cast
    rw [← add_assoc]
    linarith

/-- **C116 (GWG, one draw, long runs).** If the schedule of the run of `L` steps stays between two positive temperatures
and its steps get small as `L` grows, long runs report the optimum with probability tending to one. -/
theorem gwg_reports_one_tendsto [NeZero B] (hD : 0 < D) {name : String} {h : ℝ → ℝ}
    (hh : ∀ v, applyWeightLog name v = .ok (h v)) (obj pen : (Fin D → ℤ) → ℝ) {g : (Fin D → ℤ) → Fin D → ℝ}
    (hg : ExactGrad (fun x => obj x - pen x) g) (s : ℕ → LBState) {R G Tm TM tiny : ℝ} (ht : 0 ≤ tiny)
    (hR : ∀ x ∈ validStates 2 D, ∀ y ∈ validStates 2 D, (obj x - pen x) - (obj y - pen y) ≤ R)
    (hG : ∀ x ∈ validStates 2 D, ∀ j, |g x j| ≤ G) (hTm : 0 < Tm) (hTM : Tm ≤ TM)
    (hδ : tiny < Real.exp (-(2 * G / Tm)) / D * Real.exp (-(R / Tm))) {temp : ℕ → ℕ → ℝ}
    (hT : ∀ L, ∀ t < L, Tm ≤ temp L (t + 1) ∧ temp L (t + 1) ≤ TM) {d : ℕ → ℝ} (hd : Tendsto d atTop (nhds 0))
    (hdrift : ∀ L, ∀ t < L, |1 / temp L t - 1 / temp L (t + 1)| ≤ d L) {ref : ℝ} (href : 0 < ref) {logEvery : ℕ}
    (he : 0 < logEvery) {ratio : ℝ} (h0 : 0 ≤ ratio) (h1 : ratio ≤ 1) (zero : Fin D → ℤ) {z : Fin D → ℤ}
    (hz : z ∈ validStates 2 D) {x : Fin B → Fin D → ℤ} (hx : x ∈ prodStates B (validStates 2 D)) :
    Tendsto (fun L => shortfall (validStates 2 D) (gwgAnnealBatch 1 tiny h obj pen g (temp L) s) (fun x => obj x - pen x)
        (fun t => temp L t.toNat) ref logEvery L ratio zero x z) atTop (nhds 0) := by
  obtain ⟨η, hη, a, ha, ha1, hall⟩ := gwg_reports_one_any hD hh obj pen hg ht hR hG hTm hTM hδ
  have hst : ∀ L t, Stochastic (prodStates B (validStates 2 D)) (gwgAnnealBatch 1 tiny h obj pen g (temp L) s t) :=
    fun L t => by
    have e : gwgAnnealBatch (B := B) 1 tiny h obj pen g (temp L) s t =
        prodKernel (gwgAnneal 1 tiny h obj pen g (temp L) s t) := by
      funext x y; exact gwgBinary_batch 1 tiny h _ _ none (s t) x y
    rw [e]; exact prodKernel_stochastic (gwg_stochastic hD 1 ht h _ _ none (s t))
  have hsmall : ∀ᶠ L in atTop, ((2 * D + 1 + logEvery : ℕ) : ℝ) * d L < η := by
    have := hd.const_mul ((2 * D + 1 + logEvery : ℕ) : ℝ)
    rw [mul_zero] at this
    exact this.eventually (gt_mem_nhds hη)
  refine tendsto_of_tendsto_of_tendsto_of_le_of_le' tendsto_const_nhds
    (geom_tendsto (B := B) ha ha1 (by omega : 0 < 2 * D + 1 + logEvery))
    (Eventually.of_forall fun L => shortfall_nonneg (hst L) _ ref logEvery L ratio zero z hx) ?_
  filter_upwards [hsmall] with L hL
  refine hall (temp L) s L (hT L) he (fun t i hi hiL => ?_) href h0 h1 zero z hz x hx
  have h2 := window_drift (hdrift L) t i hiL
  have h3 : 0 ≤ d L := (abs_nonneg _).trans (hdrift L t (by omega))
  have h4 : (i : ℝ) ≤ ((2 * D + 1 + logEvery : ℕ) : ℝ) := by exact_mod_cast hi.le
  exact h2.trans ((mul_le_mul_of_nonneg_right h4 h3).trans hL.le)

section Schedules

variable [NeZero B] (hD : 0 < D) {name : String} {h : ℝ → ℝ} (hh : ∀ v, applyWeightLog name v = .ok (h v))
  (obj pen : (Fin D → ℤ) → ℝ) {g : (Fin D → ℤ) → Fin D → ℝ} (hg : ExactGrad (fun x => obj x - pen x) g)
  (s : ℕ → LBState) {R G tiny : ℝ} (ht : 0 ≤ tiny)
  (hR : ∀ x ∈ validStates 2 D, ∀ y ∈ validStates 2 D, (obj x - pen x) - (obj y - pen y) ≤ R)
  (hG : ∀ x ∈ validStates 2 D, ∀ j, |g x j| ≤ G) {ref : ℝ} (href : 0 < ref) {logEvery : ℕ}
  (he : 0 < logEvery) {ratio : ℝ} (h0 : 0 ≤ ratio) (h1 : ratio ≤ 1) (zero : Fin D → ℤ) {z : Fin D → ℤ}
  (hz : z ∈ validStates 2 D) {x : Fin B → Fin D → ℤ} (hx : x ∈ prodStates B (validStates 2 D))

include hD hh hg ht hR hG href he h0 h1 hz hx

/-- **C116 (constant schedule).** -/
theorem gwg_reports_const {init : ℝ} (hi : 0 < init)
    (hδ : tiny < Real.exp (-(2 * G / init)) / D * Real.exp (-(R / init))) :
    Tendsto (fun L => shortfall (validStates 2 D) (gwgAnnealBatch 1 tiny h obj pen g (constSchedule init) s)
        (fun x => obj x - pen x) (fun t => constSchedule init t.toNat) ref logEvery L ratio zero x z) atTop (nhds 0) :=
  gwg_reports_one_tendsto hD hh obj pen hg s ht hR hG hi le_rfl hδ (temp := fun _ => constSchedule init)
    (fun _ t _ => by
      have := const_schedule init init le_rfl hi (t + 1) 0
      exact ⟨this.2.2.2.ge, this.2.2.2.le⟩) (tendsto_const_nhds (x := (0 : ℝ)))
    (fun _ t _ => (const_drift init t).le) href he h0 h1 zero hz hx

/-- **C116 (linear schedule).** -/
theorem gwg_reports_linear {init fin : ℝ} (hf : 0 < fin) (hfi : fin ≤ init)
    (hδ : tiny < Real.exp (-(2 * G / fin)) / D * Real.exp (-(R / fin))) :
    Tendsto (fun L => shortfall (validStates 2 D) (gwgAnnealBatch 1 tiny h obj pen g (linearSchedule init fin L) s)
        (fun x => obj x - pen x) (fun t => linearSchedule init fin L t.toNat) ref logEvery L ratio zero x z)
      atTop (nhds 0) := by
  refine gwg_reports_one_tendsto hD hh obj pen hg s ht hR hG hf hfi hδ (temp := fun L => linearSchedule init fin L)
    (fun L t _ => ?_) (d := fun L => (init - fin) / (L * fin ^ 2)) ?_ (fun L t htL => linear_drift hfi hf htL)
    href he h0 h1 zero hz hx
  · have := linear_schedule init fin hfi hf L (t + 1) (t + 1) le_rfl
    exact ⟨this.2.2.1, this.2.2.2.1⟩
  · have := tendsto_const_div_atTop_nhds_zero_nat ((init - fin) / fin ^ 2)
    refine this.congr fun L => ?_
    rw [div_div, mul_comm]

/-- **C116 (exponential schedule).** -/
theorem gwg_reports_exp {init fin rate : ℝ} (hf : 0 < fin) (hfi : fin ≤ init) (hr0 : 0 < rate) (hr1 : rate < 1)
    (hδ : tiny < Real.exp (-(2 * G / fin)) / D * Real.exp (-(R / fin))) :
    Tendsto (fun L => shortfall (validStates 2 D) (gwgAnnealBatch 1 tiny h obj pen g (expSchedule init fin rate L) s)
        (fun x => obj x - pen x) (fun t => expSchedule init fin rate L t.toNat) ref logEvery L ratio zero x z)
      atTop (nhds 0) := by
  refine gwg_reports_one_tendsto hD hh obj pen hg s ht hR hG hf hfi hδ (temp := fun L => expSchedule init fin rate L)
    (fun L t _ => ?_) (d := fun L => -Real.log rate / (L * max (init * rate) fin)) ?_
    (fun L t htL => exp_drift hfi hf hr0 hr1 htL) href he h0 h1 zero hz hx
  · have := exp_schedule init fin rate hfi hf hr0 hr1 L (t + 1) (t + 1) le_rfl
    exact ⟨this.2.2.1, this.2.2.2.1⟩
  · have := tendsto_const_div_atTop_nhds_zero_nat (-Real.log rate / max (init * rate) fin)
    refine this.congr fun L => ?_
    rw [div_div, mul_comm]

end Schedules

/-! ## The scores of MaxCut and MIS are exact -/

theorem cast_oneFlip (x : Fin D → ℤ) (i : Fin D) :
    (fun j => ((oneFlip x i j : ℤ) : ℝ)) = Function.update (fun j => (x j : ℝ)) i (1 - (x i : ℝ)) := by
  funext j
  unfold oneFlip
  by_cases hj : j = i
  · subst hj; simp
  · simp [hj]

/-- **C116 (MaxCut).** -/
theorem maxcut_exactGrad {N : ℕ} {es : List (Edge N)} (hl : Loopless es) (padded : ℕ) :
    ExactGrad (fun x : Fin (N + 1) → ℤ => maxcutObjective (graph2edges es padded) (fun v => (x v : ℝ)) -
        noPenalty fun v => (x v : ℝ))
      fun x => pderiv (combForward (maxcutObjective (graph2edges es padded)) noPenalty 1) fun v => (x v : ℝ) := by
  intro x _ i
  have := maxcut_gradient_exact hl padded 1 (fun v => (x v : ℝ)) i
  rw [← cast_oneFlip] at this
  simpa [combForward] using this

/-- **C116 (MIS).** -/
theorem mis_exactGrad {N : ℕ} {es : List (Edge N)} (hl : Loopless es) (padded : ℕ) (mask : Fin (N + 1) → ℝ)
    (coeff : ℝ) :
    ExactGrad (fun x : Fin (N + 1) → ℤ => misObjective mask (fun v => (x v : ℝ)) -
        misPenalty (graph2edges es padded) mask coeff fun v => (x v : ℝ))
      fun x => pderiv (combForward (misObjective mask) (misPenalty (graph2edges es padded) mask coeff) 1)
        fun v => (x v : ℝ) := by
  intro x _ i
  have := mis_gradient_exact hl padded mask coeff 1 (fun v => (x v : ℝ)) i
  rw [← cast_oneFlip] at this
  simpa [combForward] using this

/-! ## Example -/

/-- Three sites, the number of ones as score, two chains, logged every 100 steps, cooled from 2 to 1. -/
example (s : ℕ → LBState) : Tendsto (fun L => shortfall (B := 2) (validStates 2 3)
      (gwgAnnealBatch 1 0 (· / 2) (fun x => (x 0 : ℝ) + x 1 + x 2) (fun _ => 0) (fun _ _ => 1) (linearSchedule 2 1 L) s)
      (fun x => (x 0 : ℝ) + x 1 + x 2 - 0) (fun t => linearSchedule 2 1 L t.toNat) 3 100 L 0 (fun _ => 0)
      (fun _ _ => 0) fun _ => 0) atTop (nhds 0) := by
  refine gwg_reports_linear (B := 2) (D := 3) (name := "SQRT") (R := 3) (G := 1) (by norm_num) (fun v => rfl)
    (fun x => (x 0 : ℝ) + x 1 + x 2) (fun _ => 0) ?_ s le_rfl ?_ (fun _ _ _ => by simp) (by norm_num) (by norm_num)
    le_rfl zero_le_one _ (mem_validStates_two.2 fun _ => Or.inl rfl)
    (mem_prodStates.2 fun _ => mem_validStates_two.2 fun _ => Or.inl rfl) one_pos (by norm_num) (by positivity)
  · intro x _ i
    unfold oneFlip
    fin_cases i <;> simp [Function.update] <;> ring
  · intro x hx y hy
    have hb : ∀ {v : Fin 3 → ℤ}, v ∈ validStates 2 3 → ∀ j, (0 : ℝ) ≤ v j ∧ (v j : ℝ) ≤ 1 := fun hv j => by
      rcases mem_validStates_two.1 hv j with e | e <;> simp [e]
    have a0 := hb hx 0; have a1 := hb hx 1; have a2 := hb hx 2
    have b0 := hb hy 0; have b1 := hb hy 1; have b2 := hb hy 2
    linarith [a0.2, a1.2, a2.2, b0.1, b1.1, b2.1]

end Discs
