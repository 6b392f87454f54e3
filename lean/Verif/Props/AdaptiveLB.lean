import Verif.Lemmas.SiteRun
import Verif.Props.Counters
import Verif.Props.PathAux
import Verif.Props.PeriodicIff

/-!
# Property C88 for the adaptive GWG and path-auxiliary samplers

The radius after a step depends on the acceptance ratio of the step, and with it the number of flips of
later steps.  On a model that looks at one site, and whose gradient is zero at every sample, the proposals
do not depend on the sample and the law of a run is computed exactly.
-/

namespace Discs

open Finset Spec

variable {D : ℕ}

/-! ## Number of flips near one -/

theorem numFlips_one (hD : 0 < D) {r : ℝ} (h1 : 1 ≤ r) (h2 : r < 3 / 2) : numFlips D r = 1 := by
  have hf : ⌊r⌋ = 1 := by
    rw [Int.floor_eq_iff]; constructor <;> push_cast <;> linarith
  unfold numFlips roundHalfEven
  simp only [hf]
  rw [if_pos (by push_cast; linarith)]
  omega

theorem numFlips_two (hD : 2 ≤ D) {r : ℝ} (h1 : 3 / 2 < r) (h2 : r < 2) : numFlips D r = 2 := by
  have hf : ⌊r⌋ = 1 := by
    rw [Int.floor_eq_iff]; constructor <;> push_cast <;> linarith
  unfold numFlips roundHalfEven
  simp only [hf]
  rw [if_neg (by push_cast; linarith), if_pos (by push_cast; linarith)]
  omega

/-- The radius after a step with acceptance ratio `a`. -/
noncomputable def nextRadius (D : ℕ) (t r a : ℝ) : ℝ := clip (r + a - t) 1 D

/-! ## Adaptive GWG -/

/-- Law of the draws of one adaptive GWG step at a state. -/
noncomputable def gwgLaws (h : ℝ → ℝ) (g : (Fin D → ℤ) → Fin D → ℝ) (s : LBState) (x : Fin D → ℤ) :
    (Fin (numFlips D s.radius) → Fin D) → ℝ := gwgDrawLaw h g none x

/-- One step of adaptive GWG: next sample and next state. -/
noncomputable def gwgMove (hD : 0 < D) (t tiny : ℝ) (h : ℝ → ℝ) (f : (Fin D → ℤ) → ℝ)
    (g : (Fin D → ℤ) → Fin D → ℝ) (s : LBState) (x : Fin D → ℤ) (idx : Fin (numFlips D s.radius) → Fin D)
    (u : ℝ) : (Fin D → ℤ) × LBState :=
  let r := gwgAdaptiveStep hD t tiny h f g none (fun _ : Fin 1 => x) s (fun _ => idx) (fun _ => u)
  (r.1 0, r.2.1)

/-- Probability that `numFlips` draws with replacement from `D` sites contain a given site. -/
noncomputable def gwgFlipProb (D : ℕ) (r : ℝ) : ℝ := 1 - (1 - 1 / (D : ℝ)) ^ numFlips D r

theorem softmax_gwgDist_zero (hD : 0 < D) (h : ℝ → ℝ) (x : Fin D → ℤ) (j : Fin D) :
    softmax (gwgDist h none x fun _ => 0) j = 1 / (D : ℝ) := by
  unfold gwgDist applyMask softmax logSoftmax
  simp only [mul_zero, Finset.sum_const, Finset.card_univ, Fintype.card_fin, nsmul_eq_mul]
  have := Real.exp_pos (h 0 - logsumexp fun _ : Fin D => h 0)
  have : (D : ℝ) ≠ 0 := by positivity
  field_simp

open Classical in
theorem sum_gwgDrawLaw_site (hD : 0 < D) (k : ℕ) (h : ℝ → ℝ) (x : Fin D → ℤ) (i : Fin D) (G : Bool → ℝ) :
    ∑ idx : Fin k → Fin D, gwgDrawLaw h (fun _ _ => 0) none x idx * G (decide (∃ t, idx t = i)) =
      (1 - (1 - 1 / (D : ℝ)) ^ k) * G true + (1 - 1 / (D : ℝ)) ^ k * G false := by
  have : Nonempty (Fin D) := ⟨⟨0, hD⟩⟩
  set w : Fin D → ℝ := softmax (gwgDist h none x fun _ => 0) with hw
  have hw1 : ∑ j, w j = 1 := (isProb_softmax _).2
  have hnone : ∑ idx : Fin k → Fin D, (∏ t, w (idx t)) * (if ∃ t, idx t = i then 0 else 1) =
      (1 - 1 / (D : ℝ)) ^ k := by
    have e : ∀ idx : Fin k → Fin D, (∏ t, w (idx t)) * (if ∃ t, idx t = i then 0 else 1) =
        ∏ t, (w (idx t) * if idx t = i then 0 else 1) := by
      intro idx
      rw [Finset.prod_mul_distrib]
      congr 1
      split_ifs with hh
      · obtain ⟨t, ht⟩ := hh
        exact (Finset.prod_eq_zero (f := fun t => if idx t = i then (0 : ℝ) else 1) (mem_univ t) (if_pos ht)).symm
      · push Not at hh
        exact (Finset.prod_eq_one fun t _ => if_neg (hh t)).symm
    rw [Finset.sum_congr rfl fun idx _ => e idx,
      ← Fintype.prod_sum (fun (_ : Fin k) (j : Fin D) => w j * if j = i then 0 else 1), Finset.prod_const,
      Finset.card_univ, Fintype.card_fin]
    congr 1
    have e2 : ∀ j, w j * (if j = i then 0 else 1) = w j - if j = i then w j else 0 := by
      intro j; split_ifs <;> ring
    rw [Finset.sum_congr rfl fun j _ => e2 j, Finset.sum_sub_distrib, hw1, Finset.sum_ite_eq',
      if_pos (mem_univ _), hw, softmax_gwgDist_zero hD]
  have htot : ∑ idx : Fin k → Fin D, ∏ t, w (idx t) = 1 := (isProb_iid (isProb_softmax _)).2
  have e : ∀ idx : Fin k → Fin D, gwgDrawLaw h (fun _ _ => 0) none x idx * G (decide (∃ t, idx t = i)) =
      (∏ t, w (idx t)) * G true +
        (∏ t, w (idx t)) * (if ∃ t, idx t = i then 0 else 1) * (G false - G true) := by
    intro idx
    unfold gwgDrawLaw
    by_cases hh : ∃ t, idx t = i
    · rw [if_pos hh, decide_eq_true hh]; ring
    · rw [if_neg hh, decide_eq_false hh]; ring
  rw [Finset.sum_congr rfl fun idx _ => e idx, Finset.sum_add_distrib, ← Finset.sum_mul, ← Finset.sum_mul,
    htot, hnone]
  ring

/-- The two distributions are the same when the gradient is zero. -/
theorem gwgLogAcc_zero {k : ℕ} (h : ℝ → ℝ) (f : (Fin D → ℤ) → ℝ) (x : Fin D → ℤ) (idx : Fin k → Fin D) :
    gwgLogAcc h f (fun _ _ => 0) none x idx = f (gwgPropose x idx) - f x := by
  unfold gwgLogAcc gwgLl gwgDist
  simp only [mul_zero]
  ring

theorem gwgMove_radius (hD : 0 < D) (t tiny : ℝ) (h : ℝ → ℝ) (f : (Fin D → ℤ) → ℝ) (s : LBState)
    (x : Fin D → ℤ) (idx : Fin (numFlips D s.radius) → Fin D) (u : ℝ) :
    (gwgMove hD t tiny h f (fun _ _ => 0) s x idx u).2.radius =
      nextRadius D t s.radius (Real.exp (clipMax (f (gwgPropose x idx) - f x) 0)) := by
  have := gwgLogAcc_zero h f x idx
  unfold gwgLogAcc at this
  simp [gwgMove, gwgAdaptiveStep, adaptRadius, meanB, nextRadius, gwgProposeAdaptive_eq, gwgLlAdaptive_eq,
    this]

/-- What a step of adaptive GWG does to one site. -/
theorem gwg_siteSampler (hD : 0 < D) (t tiny : ℝ) (h : ℝ → ℝ) (f : (Fin D → ℤ) → ℝ) (i : Fin D) :
    SiteSampler (Ω := fun s : LBState => Fin (numFlips D s.radius) → Fin D) tiny f i (gwgLaws h fun _ _ => 0)
      (gwgMove hD t tiny h f fun _ _ => 0) LBState.radius (fun _ idx => decide (∃ t, idx t = i)) (gwgFlipProb D)
      (nextRadius D t) (fun _ x idx => gwgPropose x idx) := by
  classical
  constructor
  · intro s x _ G
    unfold gwgFlipProb
    rw [sub_sub_cancel]
    exact sum_gwgDrawLaw_site hD _ h x i G
  · intro s x hx idx; exact gwgPropose_valid hx idx
  · intro s x _ idx; unfold gwgPropose; simp only [decide_eq_true_eq]
  · intro s x hx idx u hacc
    rw [← gwgLogAcc_zero h] at hacc
    exact (gwgAdaptive_isMH hD t tiny h f (fun _ _ => 0) none s).1 x hx idx u hacc
  · intro s x hx idx u hrej
    rw [← gwgLogAcc_zero h] at hrej
    exact (gwgAdaptive_isMH hD t tiny h f (fun _ _ => 0) none s).2 x hx idx u hrej
  · intro s x _ idx u; exact gwgMove_radius hD t tiny h _ s x idx u

/-- **C88 (adaptive GWG, exact law).** On `siteModel` the run is the two-number process. -/
theorem gwgAdaptive_site (hD : 0 < D) (t : ℝ) {tiny : ℝ} (ht : 0 ≤ tiny) (h : ℝ → ℝ) {ρ : ℝ} (h0 : 0 < ρ)
    (h1 : ρ ≤ 1) (i : Fin D) (n : ℕ) (s : LBState) {x : Fin D → ℤ} (hx : x ∈ validStates 2 D) :
    adaptiveExpect (gwgLaws h fun _ _ => 0) (gwgMove hD t tiny h (siteModel ρ i) fun _ _ => 0)
        (fun x => if x i = 1 then 1 else 0) n s x =
      siteRun ρ (acceptProb tiny (Real.log ρ)) (acceptProb tiny (-Real.log ρ)) (gwgFlipProb D)
        (nextRadius D t) n s.radius (decide (x i = 1)) := by
  exact adaptiveExpect_site ht h0 h1 (gwg_siteSampler hD t tiny h (siteModel ρ i) i) n s x hx

/-! ## Three steps from radius one -/

/-- The two-number process after three steps, when the second flip comes with the third step after two
steps of acceptance ratio one and not otherwise. -/
theorem siteRun_three {ρ τ p q r : ℝ} {P : ℝ → ℝ} {next : ℝ → ℝ → ℝ} (h0 : P r = p) (h1 : P (next r 1) = p)
    (h2 : P (next r ρ) = p) (h11 : P (next (next r 1) 1) = q) (h12 : P (next (next r 1) ρ) = p)
    (h21 : P (next (next r ρ) 1) = p) (h22 : P (next (next r ρ) ρ) = p) :
    siteRun ρ (ρ - τ) 1 P next 3 r true + ρ * siteRun ρ (ρ - τ) 1 P next 3 r false =
      1 - 2 * ρ ^ 2 * p * (q - p) * (1 - p) + τ * (q + 2 * p - 2 * p * q + 2 * p * q * ρ - p ^ 2 +
        3 * p ^ 2 * τ - 5 * p ^ 2 * ρ + p ^ 2 * q - 2 * p ^ 2 * q * ρ - 2 * p ^ 3 * τ + p ^ 3 * τ ^ 2 +
        4 * p ^ 3 * ρ - 2 * p ^ 3 * ρ * τ + p ^ 3 * ρ ^ 2) := by
  simp only [siteRun, h0, h1, h2, h11, h12, h21, h22, if_true, Bool.false_eq_true, if_false]
  ring

/-- The bias outweighs the offset of the acceptance test. -/
theorem siteRun_three_ne {τ p q r : ℝ} {P : ℝ → ℝ} {next : ℝ → ℝ → ℝ} (h0 : P r = p)
    (h1 : P (next r 1) = p) (h2 : P (next r (1 / 2)) = p) (h11 : P (next (next r 1) 1) = q)
    (h12 : P (next (next r 1) (1 / 2)) = p) (h21 : P (next (next r (1 / 2)) 1) = p)
    (h22 : P (next (next r (1 / 2)) (1 / 2)) = p) (hp0 : 0 < p) (hp : p ≤ 1 / 2) (hq : 3 / 2 * p ≤ q)
    (hq1 : q ≤ 1) (hτ : 0 ≤ τ) (hτs : 120 * τ < p ^ 2) :
    siteRun (1 / 2) (1 / 2 - τ) 1 P next 3 r true + 1 / 2 * siteRun (1 / 2) (1 / 2 - τ) 1 P next 3 r false
      ≠ 1 := by
  rw [siteRun_three h0 h1 h2 h11 h12 h21 h22]
  have hp2 : p ^ 2 ≤ 1 := by nlinarith
  have hp3 : p ^ 3 ≤ 1 := by
    have := pow_le_one₀ hp0.le (by linarith : p ≤ 1) (n := 3); exact this
  have hp3' : 0 ≤ p ^ 3 := by positivity
  have hτ1 : τ ≤ 1 := by linarith
  have hq0 : 0 ≤ q := by linarith
  have hpq : p * q ≤ 1 := mul_le_one₀ (by linarith) hq0 hq1
  have hpq' : 0 ≤ p * q := mul_nonneg hp0.le hq0
  have hp2q : p ^ 2 * q ≤ 1 := mul_le_one₀ hp2 hq0 hq1
  have hp2q' : 0 ≤ p ^ 2 * q := by positivity
  have hp2t : p ^ 2 * τ ≤ 1 := mul_le_one₀ hp2 hτ hτ1
  have hp3t : 0 ≤ p ^ 3 * τ := mul_nonneg hp3' hτ
  have hp3t2 : p ^ 3 * τ ^ 2 ≤ 1 := mul_le_one₀ hp3 (by positivity) (pow_le_one₀ hτ hτ1)
  have hp2' : 0 ≤ p ^ 2 := by positivity
  have hQ : q + 2 * p - 2 * p * q + 2 * p * q * (1 / 2) - p ^ 2 +
        3 * p ^ 2 * τ - 5 * p ^ 2 * (1 / 2) + p ^ 2 * q - 2 * p ^ 2 * q * (1 / 2) - 2 * p ^ 3 * τ +
        p ^ 3 * τ ^ 2 + 4 * p ^ 3 * (1 / 2) - 2 * p ^ 3 * (1 / 2) * τ + p ^ 3 * (1 / 2) ^ 2 ≤ 15 := by
    linarith
  have hA : p ^ 2 / 8 ≤ 2 * (1 / 2) ^ 2 * p * (q - p) * (1 - p) := by
    have a1 : p * (p / 2) ≤ p * (q - p) := mul_le_mul_of_nonneg_left (by linarith) hp0.le
    have a2 := mul_le_mul_of_nonneg_right a1 (by linarith : 0 ≤ 1 - p)
    have a3 := mul_le_mul_of_nonneg_left (by linarith : 1 / 2 ≤ 1 - p)
      (by positivity : 0 ≤ p * (p / 2))
    linarith
  have hB := mul_le_mul_of_nonneg_left hQ hτ
  intro hh
  linarith

/-- Radii reached from 1 in two steps with acceptance ratios 1 and 1/2, for requested rates in
`(1/2, 3/4)`. -/
theorem nextRadius_three (hD : 2 ≤ D) {t : ℝ} (ht1 : 1 / 2 < t) (ht2 : t < 3 / 4) {P : ℝ → ℝ} {p q : ℝ}
    (hP1 : ∀ r, 1 ≤ r → r < 3 / 2 → P r = p) (hP2 : ∀ r, 3 / 2 < r → r < 2 → P r = q) :
    P 1 = p ∧ P (nextRadius D t 1 1) = p ∧ P (nextRadius D t 1 (1 / 2)) = p ∧
      P (nextRadius D t (nextRadius D t 1 1) 1) = q ∧ P (nextRadius D t (nextRadius D t 1 1) (1 / 2)) = p ∧
      P (nextRadius D t (nextRadius D t 1 (1 / 2)) 1) = p ∧
      P (nextRadius D t (nextRadius D t 1 (1 / 2)) (1 / 2)) = p := by
  have hDr : (2 : ℝ) ≤ D := by exact_mod_cast hD
  have e1 : nextRadius D t 1 1 = 2 - t := by
    unfold nextRadius clip
    rw [max_eq_left (by linarith), min_eq_left (by linarith)]; ring
  have e2 : nextRadius D t 1 (1 / 2) = 1 := by
    unfold nextRadius clip
    rw [max_eq_right (by linarith), min_eq_left (by linarith)]
  have e3 : nextRadius D t (2 - t) 1 = 3 - 2 * t := by
    unfold nextRadius clip
    rw [max_eq_left (by linarith), min_eq_left (by linarith)]; ring
  have e4 : nextRadius D t (2 - t) (1 / 2) = 5 / 2 - 2 * t := by
    unfold nextRadius clip
    rw [max_eq_left (by linarith), min_eq_left (by linarith)]; ring
  rw [e1, e2, e3, e4, e1, e2]
  refine ⟨hP1 _ le_rfl (by norm_num), hP1 _ (by linarith) (by linarith), hP1 _ le_rfl (by norm_num),
    hP2 _ (by linarith) (by linarith), hP1 _ (by linarith) (by linarith), hP1 _ (by linarith) (by linarith),
    hP1 _ le_rfl (by norm_num)⟩

theorem acceptProb_half {tiny : ℝ} (ht : 0 ≤ tiny) (h : tiny ≤ 1 / 4) :
    acceptProb tiny (Real.log (1 / 2)) = 1 / 2 - tiny ∧ acceptProb tiny (-Real.log (1 / 2)) = 1 := by
  unfold acceptProb
  constructor
  · rw [Real.exp_log (by norm_num), min_eq_right (by linarith), max_eq_right (by linarith)]
  · rw [Real.exp_neg, Real.exp_log (by norm_num), min_eq_left (by norm_num; linarith),
      max_eq_right zero_le_one]

/-- **C88 (refuted for adaptive GWG).** For every dimension `D ≥ 2`, every requested acceptance rate between
1/2 and 3/4 (the configured one is 0.574), every balancing function and every offset of the acceptance test
small against `1 / D²` there is a smooth model whose target adaptive GWG loses within three steps from its
initial state. -/
theorem gwgAdaptive_not_kept (hD : 2 ≤ D) {t tiny : ℝ} (ht1 : 1 / 2 < t) (ht2 : t < 3 / 4) (ht : 0 ≤ tiny)
    (hsmall : 120 * (D : ℝ) ^ 2 * tiny < 1) (h : ℝ → ℝ) (i : Fin D) :
    ¬ KeepsTarget (validStates 2 D) (fun x => Real.exp (siteModel (1 / 2) i x)) (gwgLaws h fun _ _ => 0)
      (gwgMove (by omega) t tiny h (siteModel (1 / 2) i) fun _ _ => 0) gwgAdaptiveInit := by
  intro hk
  have hDr : (2 : ℝ) ≤ D := by exact_mod_cast hD
  have hq0 : 0 < 1 / (D : ℝ) := by positivity
  have hq2 : 1 / (D : ℝ) ≤ 1 / 2 := one_div_le_one_div_of_le (by norm_num) hDr
  have hs : 120 * tiny < (1 / (D : ℝ)) ^ 2 := by
    rw [div_pow, one_pow, lt_div_iff₀ (by positivity)]; linarith
  have hsq : (1 / (D : ℝ)) ^ 2 ≤ 1 := pow_le_one₀ hq0.le (by linarith)
  obtain ⟨hb, hc⟩ := acceptProb_half ht (by linarith)
  have hr := siteRun_of_keeps (tiny := tiny) (by norm_num) i (rad := LBState.radius) (n := 3)
    (fun x hx => gwgAdaptive_site (by omega) t ht h (by norm_num) (by norm_num) i 3 gwgAdaptiveInit hx) hk
  rw [hb, hc] at hr
  obtain ⟨a0, a1, a2, a3, a4, a5, a6⟩ := nextRadius_three hD ht1 ht2 (P := gwgFlipProb D)
    (p := 1 / (D : ℝ)) (q := 1 - (1 - 1 / (D : ℝ)) ^ 2)
    (fun r h1 h2 => by unfold gwgFlipProb; rw [numFlips_one (by omega) h1 h2]; ring)
    (fun r h1 h2 => by unfold gwgFlipProb; rw [numFlips_two hD h1 h2])
  refine siteRun_three_ne (r := gwgAdaptiveInit.radius) a0 a1 a2 a3 a4 a5 a6 hq0 hq2 ?_ ?_ ht hs hr
  · have := mul_le_mul_of_nonneg_left hq2 hq0.le
    nlinarith
  · have := sq_nonneg (1 - 1 / (D : ℝ)); linarith

/-- With the configured rate and the code's offset, for every sample of fewer than `10 ^ 10` sites. -/
theorem gwgAdaptive_not_kept_default (hD : 2 ≤ D) (hD' : (D : ℝ) ≤ 10 ^ 10) (h : ℝ → ℝ) (i : Fin D) :
    ¬ KeepsTarget (validStates 2 D) (fun x => Real.exp (siteModel (1 / 2) i x)) (gwgLaws h fun _ _ => 0)
      (gwgMove (by omega) 0.574 mhTiny h (siteModel (1 / 2) i) fun _ _ => 0) gwgAdaptiveInit := by
  refine gwgAdaptive_not_kept hD (by norm_num) (by norm_num) mhTiny_nonneg ?_ h i
  have h0 : (0 : ℝ) ≤ D := by positivity
  have : (D : ℝ) ^ 2 ≤ (10 ^ 10) ^ 2 := pow_le_pow_left₀ h0 hD' 2
  unfold mhTiny
  norm_num at this ⊢
  linarith

/-! ## Adaptive path-auxiliary sampler -/

/-- Law of the draws of one adaptive path-auxiliary step. -/
noncomputable def pafsLaws (h : ℝ → ℝ) (lr : (Fin D → ℤ) → Fin D → ℝ) (_s : LBState) (x : Fin D → ℤ) :
    Equiv.Perm (Fin D) → ℝ := pafsOrderLaw (pafsLogProb h lr none x)

/-- One step of the adaptive path-auxiliary sampler: next sample and next state. -/
noncomputable def pafsMove (t tiny : ℝ) (h : ℝ → ℝ) (f : (Fin D → ℤ) → ℝ)
    (lr : (Fin D → ℤ) → Fin D → ℝ) (s : LBState) (x : Fin D → ℤ) (σ : Equiv.Perm (Fin D)) (u : ℝ) :
    (Fin D → ℤ) × LBState :=
  let r := pafsAdaptiveStep t tiny 4 h f lr none (fun _ : Fin 1 => x) (fun _ => σ) (fun _ => u) s
  (r.1 0, r.2.1)

/-- Probability that `numFlips` draws without replacement from `D` sites contain a given site. -/
noncomputable def pafsFlipProb (D : ℕ) (r : ℝ) : ℝ := numFlips D r / D

theorem sum_pafsOrderLaw_total (lp : Fin D → ℝ) : ∑ σ, pafsOrderLaw lp σ = 1 := by
  classical
  have h1 := (isProb_pafsIdxLaw (k := D) le_rfl lp).2
  rw [← h1, Finset.sum_congr rfl fun idx _ => (sum_pafsOrderLaw le_rfl lp idx).symm, Finset.sum_comm]
  refine Finset.sum_congr rfl fun σ _ => ?_
  rw [Finset.sum_ite_eq, if_pos (mem_univ _)]

theorem sum_pafsOrderLaw_site (hD : 0 < D) {k : ℕ} (hk : k ≤ D) (h : ℝ → ℝ) (x : Fin D → ℤ) (i : Fin D)
    (G : Bool → ℝ) :
    ∑ σ, pafsOrderLaw (pafsLogProb h (fun _ _ => 0) none x) σ * G (orderMask k σ i) =
      (k / D : ℝ) * G true + (1 - k / D) * G false := by
  set w := pafsOrderLaw (pafsLogProb h (fun _ _ => 0) none x) with hw
  have htot : ∑ σ, w σ = 1 := sum_pafsOrderLaw_total _
  have hconst : ∀ σ τ, w σ = w τ := fun σ τ => pafsIdxLaw_const hD h 0 x x σ.injective τ.injective
  have hsym : ∀ j, ∑ σ, w σ * (if orderMask k σ j then 1 else 0) =
      ∑ σ, w σ * (if orderMask k σ i then 1 else 0) := by
    intro j
    refine Fintype.sum_equiv (Equiv.mulLeft (Equiv.swap i j)) _ _ fun σ => ?_
    rw [hconst σ (Equiv.mulLeft (Equiv.swap i j) σ)]
    have : orderMask k (Equiv.mulLeft (Equiv.swap i j) σ) i = orderMask k σ j := by
      unfold orderMask
      simp [Equiv.Perm.mul_def]
    rw [this]
  have hcount : ∀ σ : Equiv.Perm (Fin D), ∑ j, (if orderMask k σ j then (1 : ℝ) else 0) = k := by
    intro σ
    rw [← Equiv.sum_comp σ]
    unfold orderMask
    simp only [Equiv.symm_apply_apply, decide_eq_true_eq]
    rw [Finset.sum_boole]
    congr 1
    have := Fin.card_filter_val_lt (n := D) (m := k)
    rw [this, min_eq_right hk]
  have hP : ∑ σ, w σ * (if orderMask k σ i then 1 else 0) = (k / D : ℝ) := by
    have e1 : ∑ j : Fin D, ∑ σ, w σ * (if orderMask k σ j then 1 else 0) =
        D * ∑ σ, w σ * (if orderMask k σ i then 1 else 0) := by
      rw [Finset.sum_congr rfl fun j _ => hsym j, Finset.sum_const, Finset.card_univ, Fintype.card_fin,
        nsmul_eq_mul]
    rw [Finset.sum_comm] at e1
    simp only [← Finset.mul_sum, hcount] at e1
    rw [← Finset.sum_mul, htot, one_mul] at e1
    have : (D : ℝ) ≠ 0 := by positivity
    rw [e1]; field_simp
  have e : ∀ σ, w σ * G (orderMask k σ i) =
      w σ * G false + w σ * (if orderMask k σ i then 1 else 0) * (G true - G false) := by
    intro σ
    cases orderMask k σ i
    · simp
    · simp; ring
  rw [Finset.sum_congr rfl fun σ _ => e σ, Finset.sum_add_distrib, ← Finset.sum_mul, ← Finset.sum_mul, htot,
    hP]
  ring

/-- With constant scores both directions of a path have the same log-likelihood. -/
theorem pafs_zero_logAcc (hD : 0 < D) {ns : ℕ} (hn : ns ≤ D) (h : ℝ → ℝ) (x y : Fin D → ℤ)
    (σ : Equiv.Perm (Fin D)) :
    pafsLlBack (pafsLogProb h (fun _ _ => 0) none y) ns σ =
      ∑ j, pafsLlSel (pafsLogProb h (fun _ _ => 0) none x) ns σ j := by
  have hs := sum_exp_pafsLogProb hD h (fun _ _ => 0) none
  have hi := firstSites_injective hn σ
  refine Real.exp_injective ?_
  rw [exp_sum_pafsLlSel hn (hs x) σ, exp_pafsLlBack hn (hs y) σ]
  exact pafsIdxLaw_const hD h 0 y x (hi.comp Fin.rev_injective) hi

theorem pafsMove_eq (hD : 0 < D) (t tiny : ℝ) (h : ℝ → ℝ) (f : (Fin D → ℤ) → ℝ) (s : LBState)
    (x : Fin D → ℤ) (σ : Equiv.Perm (Fin D)) (u : ℝ) :
    let y := maskFlip x (orderMask (numFlips D s.radius) σ)
    (bernoulliLogp tiny u (f y - f x) → (pafsMove t tiny h f (fun _ _ => 0) s x σ u).1 = y) ∧
      (¬ bernoulliLogp tiny u (f y - f x) → (pafsMove t tiny h f (fun _ _ => 0) s x σ u).1 = x) ∧
      (pafsMove t tiny h f (fun _ _ => 0) s x σ u).2.radius =
        nextRadius D t s.radius (Real.exp (clipMax (f y - f x) 0)) := by
  intro y
  have e : f y + pafsLlBack (pafsLogProb h (fun _ _ => 0) none y) (numFlips D s.radius) σ - f x -
      ∑ j, pafsLlSel (pafsLogProb h (fun _ _ => 0) none x) (numFlips D s.radius) σ j = f y - f x := by
    rw [pafs_zero_logAcc hD (numFlips_le s.radius) h x y σ]; ring
  have h1 : (pafsMove t tiny h f (fun _ _ => 0) s x σ u).1 =
      (mhStep tiny (fun _ : Fin 1 => u) (fun _ => f y - f x) (fun _ => x) (fun _ => y)).1 0 := by
    rw [← e]; rfl
  refine ⟨fun hb => ?_, fun hb => ?_, ?_⟩
  · rw [h1, mhStep_accept hb]
  · rw [h1, mhStep_reject hb]
  · have h2 : (pafsMove t tiny h f (fun _ _ => 0) s x σ u).2.radius =
        adaptRadius t D (fun _ : Fin 1 => f y - f x) s.radius := by rw [← e]; rfl
    rw [h2]
    simp [adaptRadius, meanB, nextRadius]

/-- What a step of the adaptive path-auxiliary sampler does to one site. -/
theorem pafs_siteSampler (hD : 0 < D) (t tiny : ℝ) (h : ℝ → ℝ) (f : (Fin D → ℤ) → ℝ) (i : Fin D) :
    SiteSampler (Ω := fun _ : LBState => Equiv.Perm (Fin D)) tiny f i (pafsLaws h fun _ _ => 0)
      (pafsMove t tiny h f fun _ _ => 0) LBState.radius (fun s σ => orderMask (numFlips D s.radius) σ i)
      (pafsFlipProb D) (nextRadius D t) (fun s x σ => maskFlip x (orderMask (numFlips D s.radius) σ)) := by
  constructor
  · intro s x _ G
    exact sum_pafsOrderLaw_site hD (numFlips_le s.radius) h x i G
  · intro s x hx σ
    rw [maskFlip_eq (numFlips_le s.radius)]; exact gwgPropose_valid hx _
  · intro s x _ σ
    unfold maskFlip
    cases orderMask (numFlips D s.radius) σ i <;> simp
  · intro s x _ σ u; exact (pafsMove_eq hD t tiny h f s x σ u).1
  · intro s x _ σ u; exact (pafsMove_eq hD t tiny h f s x σ u).2.1
  · intro s x _ σ u; exact (pafsMove_eq hD t tiny h f s x σ u).2.2

/-- **C88 (adaptive path-auxiliary sampler, exact law).** On `siteModel` the run is the two-number
process. -/
theorem pafsAdaptive_site (hD : 0 < D) (t : ℝ) {tiny : ℝ} (ht : 0 ≤ tiny) (h : ℝ → ℝ) {ρ : ℝ} (h0 : 0 < ρ)
    (h1 : ρ ≤ 1) (i : Fin D) (n : ℕ) (s : LBState) {x : Fin D → ℤ} (hx : x ∈ validStates 2 D) :
    adaptiveExpect (pafsLaws h fun _ _ => 0) (pafsMove t tiny h (siteModel ρ i) fun _ _ => 0)
        (fun x => if x i = 1 then 1 else 0) n s x =
      siteRun ρ (acceptProb tiny (Real.log ρ)) (acceptProb tiny (-Real.log ρ)) (pafsFlipProb D)
        (nextRadius D t) n s.radius (decide (x i = 1)) := by
  exact adaptiveExpect_site ht h0 h1 (pafs_siteSampler hD t tiny h (siteModel ρ i) i) n s x hx

/-- **C88 (refuted for the adaptive path-auxiliary sampler).** The same, from the initial state with
`num_flips = 1` (the configured value). -/
theorem pafsAdaptive_not_kept (hD : 2 ≤ D) {t tiny : ℝ} (ht1 : 1 / 2 < t) (ht2 : t < 3 / 4) (ht : 0 ≤ tiny)
    (hsmall : 120 * (D : ℝ) ^ 2 * tiny < 1) (h : ℝ → ℝ) (i : Fin D) :
    ¬ KeepsTarget (validStates 2 D) (fun x => Real.exp (siteModel (1 / 2) i x)) (pafsLaws h fun _ _ => 0)
      (pafsMove t tiny h (siteModel (1 / 2) i) fun _ _ => 0) (pafsInit 1) := by
  intro hk
  have hDr : (2 : ℝ) ≤ D := by exact_mod_cast hD
  have hq0 : 0 < 1 / (D : ℝ) := by positivity
  have hq2 : 1 / (D : ℝ) ≤ 1 / 2 := one_div_le_one_div_of_le (by norm_num) hDr
  have hs : 120 * tiny < (1 / (D : ℝ)) ^ 2 := by
    rw [div_pow, one_pow, lt_div_iff₀ (by positivity)]; linarith
  have hsq : (1 / (D : ℝ)) ^ 2 ≤ 1 := pow_le_one₀ hq0.le (by linarith)
  obtain ⟨hb, hc⟩ := acceptProb_half ht (by linarith)
  have hr := siteRun_of_keeps (tiny := tiny) (by norm_num) i (rad := LBState.radius) (n := 3)
    (fun x hx => pafsAdaptive_site (by omega) t ht h (by norm_num) (by norm_num) i 3 (pafsInit 1) hx) hk
  have hrad : (pafsInit 1).radius = 1 := by simp [pafsInit]
  rw [hb, hc, hrad] at hr
  obtain ⟨a0, a1, a2, a3, a4, a5, a6⟩ := nextRadius_three hD ht1 ht2 (P := pafsFlipProb D)
    (p := 1 / (D : ℝ)) (q := 2 / (D : ℝ))
    (fun r h1 h2 => by unfold pafsFlipProb; rw [numFlips_one (by omega) h1 h2]; norm_num)
    (fun r h1 h2 => by unfold pafsFlipProb; rw [numFlips_two hD h1 h2]; norm_num)
  have e : 2 / (D : ℝ) = 2 * (1 / D) := by ring
  exact siteRun_three_ne a0 a1 a2 a3 a4 a5 a6 hq0 hq2 (by linarith) (by linarith) ht hs hr

/-- With the configured rate and the code's offset, for every sample of fewer than `10 ^ 10` sites. -/
theorem pafsAdaptive_not_kept_default (hD : 2 ≤ D) (hD' : (D : ℝ) ≤ 10 ^ 10) (h : ℝ → ℝ) (i : Fin D) :
    ¬ KeepsTarget (validStates 2 D) (fun x => Real.exp (siteModel (1 / 2) i x)) (pafsLaws h fun _ _ => 0)
      (pafsMove 0.574 mhTiny h (siteModel (1 / 2) i) fun _ _ => 0) (pafsInit 1) := by
  refine pafsAdaptive_not_kept hD (by norm_num) (by norm_num) mhTiny_nonneg ?_ h i
  have h0 : (0 : ℝ) ≤ D := by positivity
  have : (D : ℝ) ^ 2 ≤ (10 ^ 10) ^ 2 := pow_le_pow_left₀ h0 hD' 2
  unfold mhTiny
  norm_num at this ⊢
  linarith

end Discs
