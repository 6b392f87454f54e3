import Verif.Props.FHMM
import Mathlib.Probability.Distributions.Gaussian.Real
import Mathlib.MeasureTheory.Constructions.Pi

/-!
# Property C74: the FHMM target is the posterior of the states given the observations

The observation model: `y_t` is normal with mean `x_t · w + b` and variance `sigma²`, independently over
`t`.  Both the law of the observations the model generates and the density in the log-likelihood are
compared with the normal distribution of Mathlib.
-/

namespace Discs

open Finset Spec MeasureTheory ProbabilityTheory
open scoped NNReal

/-- Specification: joint density of independent normal observations. -/
noncomputable def normalDensity {T : Type*} [Fintype T] (mean : T → ℝ) (var : ℝ≥0) (y : T → ℝ) : ℝ :=
  ∏ t, gaussianPDFReal (mean t) var (y t)

/-- Specification: joint law of independent normal observations. -/
noncomputable def normalLaw {T : Type*} [Fintype T] (mean : T → ℝ) (var : ℝ≥0) : Measure (T → ℝ) :=
  Measure.pi fun t => gaussianReal (mean t) var

theorem normal_affine (sigma m b : ℝ) :
    (gaussianReal 0 1).map (fun z => z * sigma + m + b) =
      gaussianReal (m + b) (Real.toNNReal (sigma ^ 2)) := by
  have e : (fun z : ℝ => z * sigma + m + b) = (fun z => z + (m + b)) ∘ fun z => z * sigma := by
    funext z; simp [add_assoc]
  rw [e, ← Measure.map_map (by fun_prop) (by fun_prop), gaussianReal_map_mul_const,
    gaussianReal_map_add_const]
  congr 1
  · ring
  · ext; simp [Real.coe_toNNReal _ (sq_nonneg sigma)]

theorem normal_affine_pi {n : ℕ} (sigma : ℝ) (m : Fin (n + 1) → ℝ) (b : ℝ) :
    (Measure.pi fun _ : Fin (n + 1) => gaussianReal 0 1).map
        (fun z t => z t * sigma + m t + b) =
      normalLaw (fun t => m t + b) (Real.toNNReal (sigma ^ 2)) := by
  unfold normalLaw
  simp only [← normal_affine sigma _ b]
  exact Measure.pi_map_pi (μ := fun _ : Fin (n + 1) => gaussianReal 0 1)
    (f := fun t z => z * sigma + m t + b) fun t => by fun_prop

/-- **C74 (generated observations).** The observations the binary model generates from states `x` are
independent normals with mean `x_t · w + b` and variance `sigma²`. -/
theorem fhmm_observation_law {n K : ℕ} (sigma : ℝ) (x : Fin (n + 1) → Fin K → ℝ) (w : Fin K → ℝ) (b : ℝ) :
    (Measure.pi fun _ : Fin (n + 1) => gaussianReal 0 1).map (fhmmSampleY sigma x w b) =
      normalLaw (fun t => (∑ k, x t k * w k) + b) (Real.toNNReal (sigma ^ 2)) :=
  normal_affine_pi sigma _ b

theorem cfhmm_observation_law {n K C : ℕ} (sigma : ℝ) (x : Fin (n + 1) → Fin K → Fin C → ℝ)
    (w : Fin K → Fin C → ℝ) (b : ℝ) :
    (Measure.pi fun _ : Fin (n + 1) => gaussianReal 0 1).map (cfhmmSampleY sigma x w b) =
      normalLaw (fun t => (∑ k, ∑ c, x t k c * w k c) + b) (Real.toNNReal (sigma ^ 2)) :=
  normal_affine_pi sigma _ b

theorem exp_normal {n : ℕ} {sigma : ℝ} (y m : Fin (n + 1) → ℝ) (b : ℝ) (hs : sigma ≠ 0) :
    Real.exp (-(∑ t, (y t - m t - b) ^ 2) / (2 * sigma ^ 2)) =
      Real.sqrt (2 * Real.pi * sigma ^ 2) ^ (n + 1) *
        normalDensity (fun t => m t + b) (Real.toNNReal (sigma ^ 2)) y := by
  have hpos : 0 < 2 * Real.pi * sigma ^ 2 := by positivity
  unfold normalDensity gaussianPDFReal
  rw [Finset.prod_mul_distrib, Finset.prod_const, Finset.card_univ, Fintype.card_fin,
    Real.coe_toNNReal _ (sq_nonneg sigma), ← mul_assoc, ← mul_pow,
    mul_inv_cancel₀ (Real.sqrt_pos.2 hpos).ne', one_pow, one_mul, ← Real.exp_sum, neg_div,
    Finset.sum_div, ← Finset.sum_neg_distrib]
  congr 1
  refine Finset.sum_congr rfl fun t _ => ?_
  rw [neg_div]
  congr 3
  ring

/-- **C74 (binary).** The exponential of the log-likelihood is, up to a factor that depends only on
`sigma` and the number of time steps, the probability with which the model generates the states times
the density with which it generates the observations from them. -/
theorem fhmm_target_is_posterior {n K : ℕ} {alpha beta sigma : ℝ} (ha : 0 < alpha ∧ alpha < 1)
    (hb : 0 < beta ∧ beta < 1) (hs : sigma ≠ 0) (w : Fin K → ℝ) (b : ℝ) (y : Fin (n + 1) → ℝ)
    (x : Fin (n + 1) → Fin K → Bool) :
    let xr : Fin (n + 1) → Fin K → ℝ := fun t k => if x t k then 1 else 0
    Real.exp (fhmmForward alpha beta sigma w b y xr) =
      Real.sqrt (2 * Real.pi * sigma ^ 2) ^ (n + 1) * (fhmmSampleProb alpha beta x *
        normalDensity (fun t => (∑ k, xr t k * w k) + b) (Real.toNNReal (sigma ^ 2)) y) := by
  intro xr
  unfold fhmmForward fhmmLogpY
  rw [Real.exp_add, fhmm_prior_is_sampler_law ha hb, exp_normal y (fun t => ∑ k, xr t k * w k) b hs]
  ring

/-- **C74 (categorical).** The same; the factor also contains the row sums of the transition matrix
(see C36), which are all equal. -/
theorem cfhmm_target_is_posterior {n K C : ℕ} (hC : 2 ≤ C) {beta sigma : ℝ} (h0 : 0 ≤ beta)
    (hs : sigma ≠ 0) (a : Fin C → ℝ) (ha : ∀ c, 0 < a c) (ha1 : ∑ c, a c = 1) (w : Fin K → Fin C → ℝ)
    (b : ℝ) (y : Fin (n + 1) → ℝ) (v : Fin (n + 1) → Fin K → Fin C) :
    Real.exp (cfhmmForward (fun c => Real.log (a c)) (fun i j => Real.log (cfhmmBeta C beta i j))
        sigma w b y (cfhmmOneHot v)) =
      ((1 + cfhmmDiag C beta) ^ (n * K) * Real.sqrt (2 * Real.pi * sigma ^ 2) ^ (n + 1)) *
        (cfhmmSampleProb (fun c => Real.log (a c)) (cfhmmBeta C beta) v *
          normalDensity (fun t => (∑ k, w k (v t k)) + b) (Real.toNNReal (sigma ^ 2)) y) := by
  unfold cfhmmForward cfhmmLogpY
  rw [Real.exp_add, cfhmm_prior_proportional_partial hC h0 a ha ha1,
    exp_normal y (fun t => ∑ k, ∑ c, cfhmmOneHot v t k c * w k c) b hs]
  simp only [cfhmmOneHot, oneHot_sum]
  ring

/-- **C74 (effect on sampling).** Ratios of the target at two state sequences are the ratios of the
generating joint density: the constant cancels. -/
theorem fhmm_odds {n K : ℕ} {alpha beta sigma : ℝ} (ha : 0 < alpha ∧ alpha < 1)
    (hb : 0 < beta ∧ beta < 1) (hs : sigma ≠ 0) (w : Fin K → ℝ) (b : ℝ) (y : Fin (n + 1) → ℝ)
    (x x' : Fin (n + 1) → Fin K → Bool) :
    let real : (Fin (n + 1) → Fin K → Bool) → Fin (n + 1) → Fin K → ℝ :=
      fun x t k => if x t k then 1 else 0
    let joint := fun x => fhmmSampleProb alpha beta x *
      normalDensity (fun t => (∑ k, real x t k * w k) + b) (Real.toNNReal (sigma ^ 2)) y
    Real.exp (fhmmForward alpha beta sigma w b y (real x)) * joint x' =
      Real.exp (fhmmForward alpha beta sigma w b y (real x')) * joint x := by
  intro real joint
  have h1 := fhmm_target_is_posterior ha hb hs w b y x
  have h2 := fhmm_target_is_posterior ha hb hs w b y x'
  dsimp only at h1 h2
  dsimp only [real, joint]
  rw [h1, h2]; ring

/-- Instance: the default parameters of the repository's FHMM configuration are admissible. -/
example : (0 < (0.1 : ℝ) ∧ (0.1 : ℝ) < 1) ∧ (0 < (0.8 : ℝ) ∧ (0.8 : ℝ) < 1) ∧ (2 : ℝ) ≠ 0 := by norm_num

end Discs
