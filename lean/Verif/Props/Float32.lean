import Verif.Model.Float32
import Verif.Model.Factorized
import Verif.Lemmas.Float32
import Verif.Lemmas.NearMH
import Verif.Props.RandomWalk
import Verif.Props.GridNoise
import Mathlib.Analysis.Complex.ExponentialBounds

/-!
# Property C107: single-precision arithmetic

The theorems about the samplers are about real numbers.  This file bounds what single precision adds: the error of the computed
energies, of the acceptance test, and of the law of a random-walk run.
-/

namespace Discs

open Finset Spec

/-! ## The acceptance test -/

/-- Error of the computed logarithm of the noise, for a library logarithm of relative accuracy `ρ`. -/
noncomputable def logErr (ρ : ℝ) : ℝ := 2⁻¹ ^ 22 + 56 * ρ

theorem log_mhTiny : -(55.5 : ℝ) ≤ Real.log mhTiny := by
  have h1 : (1e48 : ℝ) ≤ Real.exp 111 := by
    have := Real.exp_one_gt_d9
    calc (1e48 : ℝ) ≤ (2.7182818283 : ℝ) ^ 111 := by norm_num
      _ ≤ Real.exp 1 ^ 111 := pow_le_pow_left₀ (by norm_num) this.le _
      _ = Real.exp 111 := by rw [← Real.exp_nat_mul]; norm_num
  have h2 : Real.log (1e48 : ℝ) ≤ 111 := (Real.log_le_log (by norm_num) h1).trans_eq (Real.log_exp 111)
  have h3 : Real.log (1e48 : ℝ) = -(2 * Real.log mhTiny) := by
    rw [show (1e48 : ℝ) = (mhTiny ^ 2)⁻¹ by unfold mhTiny; norm_num, Real.log_inv, Real.log_pow]
    norm_num
  linarith

/-- The computed logarithm of a noise value. -/
theorem log_noise_err {rd lg : ℝ → ℝ} (hrd : IsRound rd) {ρ : ℝ} (h0 : 0 ≤ ρ) (hlg : LogAcc ρ lg Real.log) {u : ℝ}
    (hu : 0 ≤ u) (hu1 : u < 1) : |lg (rd (u + rd mhTiny)) - Real.log (u + mhTiny)| ≤ logErr ρ := by
  have ht := mhTiny_pos
  have hf : f32u = 1 / 16777216 := by unfold f32u; norm_num
  have hw : 0 < u + mhTiny := by linarith
  set w := u + mhTiny with hwd
  have r1 := abs_le.1 (hrd.rel mhTiny)
  rw [abs_of_pos ht] at r1
  have hv1 : w * (1 - f32u) ≤ u + rd mhTiny := by nlinarith [f32u_pos]
  have hv2 : u + rd mhTiny ≤ w * (1 + f32u) := by nlinarith [f32u_pos]
  have hpos : 0 < u + rd mhTiny := lt_of_lt_of_le (mul_pos hw (by rw [hf]; norm_num)) hv1
  have r2 := abs_le.1 (hrd.rel (u + rd mhTiny))
  rw [abs_of_pos hpos] at r2
  set v := rd (u + rd mhTiny) with hvd
  have hlo : w * (1 - f32u) ^ 2 ≤ v := by
    have : w * (1 - f32u) * (1 - f32u) ≤ (u + rd mhTiny) * (1 - f32u) :=
      mul_le_mul_of_nonneg_right hv1 (by rw [hf]; norm_num)
    nlinarith
  have hhi : v ≤ w * (1 + f32u) ^ 2 := by
    have : (u + rd mhTiny) * (1 + f32u) ≤ w * (1 + f32u) * (1 + f32u) :=
      mul_le_mul_of_nonneg_right hv2 (by rw [hf]; norm_num)
    nlinarith
  have hv0 : 0 < v := lt_of_lt_of_le (mul_pos hw (by rw [hf]; norm_num)) hlo
  have l1 : Real.log v ≤ Real.log w + 2⁻¹ ^ 23 := by
    have h := Real.log_le_log hv0 hhi
    rw [Real.log_mul hw.ne' (by rw [hf]; norm_num), Real.log_pow] at h
    have h2 := Real.log_le_sub_one_of_pos (x := 1 + f32u) (by rw [hf]; norm_num)
    rw [hf] at h h2
    norm_num at h h2 ⊢
    linarith
  have l2 : Real.log w - 2⁻¹ ^ 22 ≤ Real.log v := by
    have h := Real.log_le_log (mul_pos hw (by rw [hf]; norm_num)) hlo
    rw [Real.log_mul hw.ne' (by rw [hf]; norm_num), Real.log_pow] at h
    have h2 := Real.one_sub_inv_le_log_of_pos (x := 1 - f32u) (by rw [hf]; norm_num)
    rw [hf] at h h2
    norm_num at h h2 ⊢
    linarith
  have b1 : -(55.5 : ℝ) ≤ Real.log w := log_mhTiny.trans (Real.log_le_log ht (by linarith))
  have b2 : Real.log w ≤ 1 := by
    have h := Real.log_le_sub_one_of_pos hw
    have : mhTiny ≤ 1 := by unfold mhTiny; norm_num
    linarith
  have b : |Real.log v| ≤ 56 := by
    rw [abs_le]
    constructor
    · norm_num at l2 b1 ⊢; linarith
    · norm_num at l1 ⊢; linarith
  have hl := hlg v hv0
  have hl' : |lg v - Real.log v| ≤ 56 * ρ := hl.trans (by nlinarith)
  have := abs_le.1 hl'
  unfold logErr
  rw [abs_le]
  norm_num at l1 l2 ⊢
  constructor <;> linarith

/-- C107 (acceptance test): the computed test agrees with the exact one up to `logErr` in the log-probability: it passes when
the exact test passes with that much to spare, and fails when the exact test fails by more. -/
theorem bernoulliLogpF_near {rd lg : ℝ → ℝ} (hrd : IsRound rd) {ρ : ℝ} (h0 : 0 ≤ ρ) (hlg : LogAcc ρ lg Real.log) {u : ℝ}
    (hu : 0 ≤ u) (hu1 : u < 1) (lp : ℝ) :
    (bernoulliLogp mhTiny u (lp - logErr ρ) → bernoulliLogpF rd lg u lp) ∧
      (bernoulliLogpF rd lg u lp → bernoulliLogp mhTiny u (lp + logErr ρ)) := by
  have := abs_le.1 (log_noise_err hrd h0 hlg hu hu1)
  unfold bernoulliLogp bernoulliLogpF
  constructor <;> intro h <;> linarith

/-! ## The random walk -/

variable {D : ℕ}

/-- Error of the computed log acceptance ratio plus that of the test: energies computed within `ε`, energy differences at most
`R`, logarithm of relative accuracy `ρ`. -/
noncomputable def rwErr (ε R ρ : ℝ) : ℝ := 2 * ε + 2⁻¹ ^ 24 * (R + 2 * ε) + logErr ρ

theorem rwF_near {rd lg : ℝ → ℝ} (hrd : IsRound rd) {ρ : ℝ} (h0 : 0 ≤ ρ) (hlg : LogAcc ρ lg Real.log)
    {f F₁ F₂ : (Fin D → ℤ) → ℝ} {C : ℕ} (hC : 2 ≤ C) {ε R : ℝ} (h1 : ∀ x ∈ validStates C D, |F₁ x - f x| ≤ ε)
    (h2 : ∀ x ∈ validStates C D, |F₂ x - f x| ≤ ε)
    (hR : ∀ x ∈ validStates C D, ∀ y ∈ validStates C D, |f y - f x| ≤ R) :
    NearMHStep (validStates C D) mhTiny (rwErr ε R ρ) (rwPropose (C := C)) (fun x d => f (rwPropose x d) - f x)
      (fun x d u => rwStepF rd lg F₁ F₂ C (fun _ : Fin 1 => x) (fun _ => d) (fun _ => u) 0) := by
  have key : ∀ x ∈ validStates C D, ∀ d : RWDraw C D,
      |rd (F₂ (rwPropose x d) - F₁ x) - (f (rwPropose x d) - f x)| ≤ 2 * ε + 2⁻¹ ^ 24 * (R + 2 * ε) := by
    intro x hx d
    have hy : rwPropose x d ∈ validStates C D := rwPropose_valid (by omega) x d
    have a1 := abs_le.1 (h1 x hx)
    have a2 := abs_le.1 (h2 _ hy)
    have a3 := abs_le.1 (hR x hx _ hy)
    have hb : |F₂ (rwPropose x d) - F₁ x| ≤ R + 2 * ε := by rw [abs_le]; constructor <;> linarith
    have hr := abs_le.1 ((hrd.rel (F₂ (rwPropose x d) - F₁ x)).trans (mul_le_mul_of_nonneg_left hb f32u_pos.le))
    unfold f32u at hr
    rw [abs_le]
    constructor <;> linarith
  refine ⟨fun x _ d u => ?_, fun x hx d u hu hu1 h => ?_, fun x hx d u hu hu1 h => ?_⟩
  · classical exact ite_eq_or_eq _ _ _
  · refine if_pos ((bernoulliLogpF_near hrd h0 hlg hu hu1 _).1 ?_)
    have := abs_le.1 (key x hx d)
    unfold bernoulliLogp rwErr at *
    linarith
  · refine if_neg fun hF => h ?_
    have hF' := (bernoulliLogpF_near hrd h0 hlg hu hu1 _).2 hF
    have := abs_le.1 (key x hx d)
    unfold bernoulliLogp rwErr at *
    linarith

theorem rwErr_nonneg {ε R ρ : ℝ} (hε : 0 ≤ ε) (hR : 0 ≤ R) (hρ : 0 ≤ ρ) : 0 ≤ rwErr ε R ρ := by
  unfold rwErr logErr; positivity

/-- C107 (a run): `n` random-walk steps in single precision, with noise on a grid of `M` values, move the target by at most
`2 n ((e ^ η - 1) + 1e-24 + 1 / M)` of its mass, `η = rwErr ε R ρ`. -/
theorem rwF_run {rd lg : ℝ → ℝ} (hrd : IsRound rd) {ρ : ℝ} (h0 : 0 ≤ ρ) (hlg : LogAcc ρ lg Real.log)
    {f : (Fin D → ℤ) → ℝ} {F₁ F₂ : ℕ → (Fin D → ℤ) → ℝ} {C : ℕ} (hC : 2 ≤ C) {ε R : ℝ} (hε : 0 ≤ ε) (hR0 : 0 ≤ R)
    (h1 : ∀ t, ∀ x ∈ validStates C D, |F₁ t x - f x| ≤ ε) (h2 : ∀ t, ∀ x ∈ validStates C D, |F₂ t x - f x| ≤ ε)
    (hR : ∀ x ∈ validStates C D, ∀ y ∈ validStates C D, |f y - f x| ≤ R) {r : ℕ → ℝ} (hr0 : ∀ t, 0 ≤ r t)
    (hr1 : ∀ t, r t ≤ D) {M : ℕ} (hM : 0 < M) (n : ℕ) :
    NearlyInvariant (validStates C D) (fun x => Real.exp (f x))
      (iterate (validStates C D) (fun t => rwKernelF M rd lg (F₁ t) (F₂ t) C (r t)) n)
      (n * (2 * ((Real.exp (rwErr ε R ρ) - 1) + mhTiny + 1 / M))) :=
  PathMH.near_run (fun t => rw_pathMH f hC (hr0 t) (hr1 t)) mhTiny_pos (rwErr_nonneg hε hR0 h0)
    (fun t => rwF_near hrd h0 hlg hC (h1 t) (h2 t) hR) hM n

/-- C107 (the errors do not accumulate): with flip probabilities bounded away from `0` and `1` the law of the run approaches the
target geometrically, down to a floor proportional to the error of one step. -/
theorem rwF_converges {rd lg : ℝ → ℝ} (hrd : IsRound rd) {ρ : ℝ} (h0 : 0 ≤ ρ) (hlg : LogAcc ρ lg Real.log)
    {f : (Fin D → ℤ) → ℝ} {F₁ F₂ : ℕ → (Fin D → ℤ) → ℝ} {C : ℕ} (hC : 2 ≤ C) {ε R : ℝ} (hε : 0 ≤ ε) (hR0 : 0 ≤ R)
    (h1 : ∀ t, ∀ x ∈ validStates C D, |F₁ t x - f x| ≤ ε) (h2 : ∀ t, ∀ x ∈ validStates C D, |F₂ t x - f x| ≤ ε)
    (hR : ∀ x ∈ validStates C D, ∀ y ∈ validStates C D, |f y - f x| ≤ R) {r : ℕ → ℝ} {a : ℝ} (ha : 0 < a) (ha1 : a ≤ 1)
    (hlo : ∀ t, a * (C - 1 : ℕ) * D ≤ r t) (hhi : ∀ t, r t ≤ (1 - a * (C - 1 : ℕ)) * D) {M : ℕ} (hM : 0 < M) :
    ConvergesWithin (validStates C D) (fun x => Real.exp (f x)) (fun t => rwKernelF M rd lg (F₁ t) (F₂ t) C (r t)) 1
      (1 - a ^ D) (2 * ((Real.exp (rwErr ε R ρ) - 1) + mhTiny + 1 / M) / a ^ D) := by
  have hr0 : ∀ t, 0 ≤ r t := fun t => le_trans (by positivity) (hlo t)
  have hr1 : ∀ t, r t ≤ D := fun t => (hhi t).trans (by
    have : 0 ≤ a * (C - 1 : ℕ) * (D : ℝ) := by positivity
    linarith)
  refine PathMH.near_converges (fun t => rw_pathMH f hC (hr0 t) (hr1 t)) mhTiny_pos (rwErr_nonneg hε hR0 h0)
    (fun t => rwF_near hrd h0 hlg hC (h1 t) (h2 t) hR) hM (by positivity) (pow_le_one₀ ha.le ha1) fun t x hx y hy => ?_
  obtain ⟨d, hd⟩ := rw_reach hC hx hy
  exact ⟨d, hd, rw_floor hC ha (hlo t) (hhi t) _, rw_floor hC ha (hlo t) (hhi t) _⟩

/-- Targets of close energies are close. -/
theorem l1_target_le {X : Type*} {S : Finset X} {f F : X → ℝ} {ε : ℝ} (hε : 0 ≤ ε) (h : ∀ x ∈ S, |F x - f x| ≤ ε) :
    l1 S (target S fun x => Real.exp (F x)) (target S fun x => Real.exp (f x)) ≤ Real.exp (2 * ε) - 1 := by
  have he : 1 ≤ Real.exp (2 * ε) := Real.one_le_exp (by linarith)
  rcases S.eq_empty_or_nonempty with rfl | hS
  · simpa [l1] using he
  set Zf := ∑ x ∈ S, Real.exp (f x) with hZf
  set ZF := ∑ x ∈ S, Real.exp (F x) with hZF
  have hf0 : 0 < Zf := Finset.sum_pos (fun _ _ => Real.exp_pos _) hS
  have hF0 : 0 < ZF := Finset.sum_pos (fun _ _ => Real.exp_pos _) hS
  have z1 : ZF ≤ Real.exp ε * Zf := by
    rw [hZF, hZf, Finset.mul_sum]
    refine Finset.sum_le_sum fun x hx => ?_
    rw [← Real.exp_add]
    exact Real.exp_le_exp.2 (by have := abs_le.1 (h x hx); linarith)
  have z2 : Zf ≤ Real.exp ε * ZF := by
    rw [hZF, hZf, Finset.mul_sum]
    refine Finset.sum_le_sum fun x hx => ?_
    rw [← Real.exp_add]
    exact Real.exp_le_exp.2 (by have := abs_le.1 (h x hx); linarith)
  have hsq : Real.exp (2 * ε) = Real.exp ε * Real.exp ε := by rw [← Real.exp_add]; ring_nf
  have hrow : ∀ y ∈ S, |target S (fun x => Real.exp (F x)) y - target S (fun x => Real.exp (f x)) y| ≤
      (Real.exp (2 * ε) - 1) * target S (fun x => Real.exp (f x)) y := by
    intro y hy
    have hb := abs_le.1 (h y hy)
    have e1 : Real.exp (F y) ≤ Real.exp ε * Real.exp (f y) := by
      rw [← Real.exp_add]; exact Real.exp_le_exp.2 (by linarith)
    have e2 : Real.exp (f y) ≤ Real.exp ε * Real.exp (F y) := by
      rw [← Real.exp_add]; exact Real.exp_le_exp.2 (by linarith)
    have up : Real.exp (F y) / ZF ≤ Real.exp (2 * ε) * (Real.exp (f y) / Zf) := by
      rw [div_le_iff₀ hF0, hsq]
      have : Real.exp ε * Real.exp (f y) * Zf ≤ Real.exp ε * Real.exp (f y) * (Real.exp ε * ZF) :=
        mul_le_mul_of_nonneg_left z2 (by positivity)
      have h3 : Real.exp ε * Real.exp (f y) ≤ Real.exp ε * Real.exp (f y) * (Real.exp ε * ZF) / Zf := by
        rwa [le_div_iff₀ hf0]
      refine e1.trans (h3.trans (le_of_eq ?_))
      ring
    have dn : Real.exp (f y) / Zf ≤ Real.exp (2 * ε) * (Real.exp (F y) / ZF) := by
      rw [div_le_iff₀ hf0, hsq]
      have : Real.exp ε * Real.exp (F y) * ZF ≤ Real.exp ε * Real.exp (F y) * (Real.exp ε * Zf) :=
        mul_le_mul_of_nonneg_left z1 (by positivity)
      have h3 : Real.exp ε * Real.exp (F y) ≤ Real.exp ε * Real.exp (F y) * (Real.exp ε * Zf) / ZF := by
        rwa [le_div_iff₀ hF0]
      refine e2.trans (h3.trans (le_of_eq ?_))
      ring
    show |Real.exp (F y) / ZF - Real.exp (f y) / Zf| ≤ (Real.exp (2 * ε) - 1) * (Real.exp (f y) / Zf)
    have hp : 0 < Real.exp (f y) / Zf := by positivity
    have hq : 0 < Real.exp (F y) / ZF := by positivity
    rw [abs_le]
    constructor
    · rcases le_total (Real.exp (f y) / Zf) (Real.exp (F y) / ZF) with hc | hc
      · nlinarith
      · nlinarith
    · linarith
  unfold l1
  refine (Finset.sum_le_sum hrow).trans (le_of_eq ?_)
  rw [← Finset.mul_sum, sum_target (Finset.sum_pos (fun _ _ => Real.exp_pos _) hS), mul_one]

/-- C107 (energy error): if the computed energy is a function `F` of the sample, the chain approaches the target of `F`; the
error `ε` of the energies only displaces the target, by at most `e ^ (2 ε) - 1`, whatever the speed of the chain. -/
theorem rwF_converges_energy {rd lg : ℝ → ℝ} (hrd : IsRound rd) {ρ : ℝ} (h0 : 0 ≤ ρ) (hlg : LogAcc ρ lg Real.log)
    {f F : (Fin D → ℤ) → ℝ} {C : ℕ} (hC : 2 ≤ C) {ε R : ℝ} (hε : 0 ≤ ε) (hR0 : 0 ≤ R)
    (h1 : ∀ x ∈ validStates C D, |F x - f x| ≤ ε)
    (hR : ∀ x ∈ validStates C D, ∀ y ∈ validStates C D, |F y - F x| ≤ R) {r : ℕ → ℝ} {a : ℝ} (ha : 0 < a) (ha1 : a ≤ 1)
    (hlo : ∀ t, a * (C - 1 : ℕ) * D ≤ r t) (hhi : ∀ t, r t ≤ (1 - a * (C - 1 : ℕ)) * D) {M : ℕ} (hM : 0 < M) :
    ConvergesWithin (validStates C D) (fun x => Real.exp (f x)) (fun t => rwKernelF M rd lg F F C (r t)) 1
      (1 - a ^ D) (2 * ((Real.exp (rwErr 0 R ρ) - 1) + mhTiny + 1 / M) / a ^ D + (Real.exp (2 * ε) - 1)) := by
  intro x hx n
  have h := rwF_converges hrd h0 hlg (f := F) (F₁ := fun _ => F) (F₂ := fun _ => F) hC le_rfl hR0
    (fun _ _ _ => by simp) (fun _ _ _ => by simp) hR ha ha1 hlo hhi hM x hx n
  have h2 := l1_target_le hε h1
  have h3 := l1_triangle (validStates C D)
    (iterate (validStates C D) (fun t => rwKernelF M rd lg F F C (r t)) n x)
    (target (validStates C D) fun x => Real.exp (F x)) (target (validStates C D) fun x => Real.exp (f x))
  linarith

end Discs
