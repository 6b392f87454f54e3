import Mathlib.Analysis.Calculus.FDeriv.Add
import Mathlib.Analysis.Calculus.FDeriv.Mul
import Mathlib.Analysis.Calculus.FDeriv.Prod
import Mathlib.Analysis.SpecialFunctions.Log.Deriv
import Mathlib.Analysis.SpecialFunctions.ExpDeriv
import Verif.Model.Training
import Verif.Props.Convergence

/-!
# C91: the training gradient is the gradient of the log-likelihood

The specification is the negative log-likelihood of a batch of data under the distribution with weights
`exp (forward θ x)`; the training code never computes it.
-/

namespace Discs

open Finset Spec

/-- Average negative log-likelihood of the examples `data` under the model on the finite state space
`S` whose unnormalised log-probability is `forward θ`. -/
noncomputable def Spec.negLogLik {Θ X : Type*} (S : Finset X) (forward : Θ → X → ℝ) {n : ℕ} (data : Fin n → X)
    (θ : Θ) : ℝ :=
  -((∑ i, Real.log (Real.exp (forward θ (data i)) / ∑ x ∈ S, Real.exp (forward θ x))) / n)

section General

variable {Θ X : Type*} [NormedAddCommGroup Θ] [NormedSpace ℝ Θ]

theorem pcdLoss_hasFDerivAt {per : ℕ} (forward : Θ → X → ℝ) (pos neg : Fin per → X) (θ : Θ)
    {G : X → Θ →L[ℝ] ℝ} (hp : ∀ j, HasFDerivAt (fun t => forward t (pos j)) (G (pos j)) θ)
    (hn : ∀ j, HasFDerivAt (fun t => forward t (neg j)) (G (neg j)) θ) :
    HasFDerivAt (pcdLoss forward pos neg) ((per : ℝ)⁻¹ • ∑ j, (G (neg j) - G (pos j))) θ := by
  have h := (HasFDerivAt.fun_sum (u := univ) fun j _ => (hn j).sub (hp j)).const_smul (per : ℝ)⁻¹
  refine h.congr_of_eventuallyEq (Filter.Eventually.of_forall fun t => ?_)
  simp only [pcdLoss, localMean, smul_eq_mul, Pi.smul_apply]
  rw [div_eq_inv_mul]
  rfl

theorem negLogLik_hasFDerivAt {n : ℕ} (hn : 0 < n) (S : Finset X) (hS : S.Nonempty) (forward : Θ → X → ℝ)
    (data : Fin n → X) (hd : ∀ i, data i ∈ S) (θ : Θ) {G : X → Θ →L[ℝ] ℝ}
    (hG : ∀ x ∈ S, HasFDerivAt (fun t => forward t x) (G x) θ) :
    HasFDerivAt (negLogLik S forward data)
      ((∑ x ∈ S, target S (fun x => Real.exp (forward θ x)) x • G x) - (n : ℝ)⁻¹ • ∑ i, G (data i)) θ := by
  have hZ : ∀ t, 0 < ∑ x ∈ S, Real.exp (forward t x) := fun t => Finset.sum_pos (fun x _ => Real.exp_pos _) hS
  have e : negLogLik S forward data = fun t => Real.log (∑ x ∈ S, Real.exp (forward t x))
      - (n : ℝ)⁻¹ • ∑ i, forward t (data i) := by
    funext t
    simp only [negLogLik, smul_eq_mul]
    rw [Finset.sum_congr rfl fun i _ => by
      rw [Real.log_div (Real.exp_pos _).ne' (hZ t).ne', Real.log_exp], Finset.sum_sub_distrib]
    simp only [sum_const, card_univ, Fintype.card_fin, nsmul_eq_mul]
    have hn' : (n : ℝ) ≠ 0 := by positivity
    field_simp
    ring
  rw [e]
  have h1 := (HasFDerivAt.fun_sum (u := S) fun x hx => (hG x hx).exp).log (hZ θ).ne'
  have h2 := (HasFDerivAt.fun_sum (u := univ) fun i _ => hG (data i) (hd i)).const_smul (n : ℝ)⁻¹
  refine (h1.sub h2).congr_fderiv ?_
  congr 1
  rw [Finset.smul_sum]
  refine Finset.sum_congr rfl fun x _ => ?_
  rw [smul_smul, target, div_eq_inv_mul]

/-- **C91 (bias of the training gradient).**  Whatever the negative samples are, the expected gradient differs
from the gradient of the negative log-likelihood of the whole batch by at most the average `L¹` distance of
the laws of the negative samples from the model, times a bound of the score.  The samples may depend on one
another: `p` is the joint law of all draws. -/
theorem pcdGrad_bias {Ω : Type*} [Fintype Ω] [DecidableEq X] {dev per : ℕ} (hdev : 0 < dev) (hper : 0 < per)
    (S : Finset X) (hS : S.Nonempty) (forward : Θ → X → ℝ) (θ : Θ) {G : X → Θ →L[ℝ] ℝ}
    (hG : ∀ x ∈ S, HasFDerivAt (fun t => forward t x) (G x) θ) {M : ℝ} (hM : ∀ x ∈ S, ‖G x‖ ≤ M)
    (data : Fin (dev * per) → X) (hd : ∀ i, data i ∈ S)
    (p : Ω → ℝ) (hp : IsProb p) (neg : Ω → Fin dev → Fin per → X) (hneg : ∀ ω d j, neg ω d j ∈ S) :
    ‖(∑ ω, p ω • pcdGrad forward (shard data) (neg ω) θ) - fderiv ℝ (negLogLik S forward data) θ‖
      ≤ M * ((∑ d, ∑ j, l1 S (law p fun ω => neg ω d j) (target S fun x => Real.exp (forward θ x)))
          / (dev * per : ℕ)) := by
  set π := target S fun x => Real.exp (forward θ x) with hπ
  have hn : 0 < dev * per := Nat.mul_pos hdev hper
  have hdev' : (dev : ℝ) ≠ 0 := by positivity
  have hper' : (per : ℝ) ≠ 0 := by positivity
  have hshard : ∀ d j, shard data d j ∈ S := fun d j => hd _
  have hgrad : ∀ ω, pcdGrad forward (shard data) (neg ω) θ
      = ((dev * per : ℕ) : ℝ)⁻¹ • ∑ d, ∑ j, (G (neg ω d j) - G (shard data d j)) := by
    intro ω
    rw [pcdGrad, Finset.sum_congr rfl fun d _ => (pcdLoss_hasFDerivAt forward (shard data d) (neg ω d) θ
      (G := G) (fun j => hG _ (hshard d j)) fun j => hG _ (hneg ω d j)).fderiv, ← Finset.smul_sum, smul_smul]
    push_cast
    rw [mul_inv]
  have hlaw : ∀ d j, ∑ ω, p ω • G (neg ω d j) = ∑ x ∈ S, law p (fun ω => neg ω d j) x • G x := by
    intro d j
    simp only [law, Finset.sum_smul]
    rw [Finset.sum_comm]
    refine Finset.sum_congr rfl fun ω _ => ?_
    rw [Finset.sum_eq_single (neg ω d j)]
    · simp
    · intro x _ hx
      rw [if_neg fun h => hx h.symm, zero_smul]
    · exact fun h => absurd (hneg ω d j) h
  have hdata : ∑ d, ∑ j, G (shard data d j) = ∑ i, G (data i) := by
    rw [← Fintype.sum_prod_type' fun d j => G (shard data d j)]
    exact Equiv.sum_comp finProdFinEquiv fun i => G (data i)
  have hdiff : (∑ ω, p ω • pcdGrad forward (shard data) (neg ω) θ) - fderiv ℝ (negLogLik S forward data) θ
      = ((dev * per : ℕ) : ℝ)⁻¹ • ∑ d, ∑ j, ∑ x ∈ S, (law p (fun ω => neg ω d j) x - π x) • G x := by
    rw [(negLogLik_hasFDerivAt hn S hS forward data hd θ hG).fderiv]
    have e1 : ∑ ω, p ω • pcdGrad forward (shard data) (neg ω) θ
        = ((dev * per : ℕ) : ℝ)⁻¹ • ((∑ d, ∑ j, ∑ ω, p ω • G (neg ω d j)) - ∑ i, G (data i)) := by
      rw [← hdata, Finset.sum_congr rfl fun ω _ => by rw [hgrad ω, smul_comm], ← Finset.smul_sum]
      congr 1
      simp only [Finset.sum_sub_distrib, smul_sub]
      congr 1
      · simp only [Finset.smul_sum]
        rw [Finset.sum_comm]
        exact Finset.sum_congr rfl fun d _ => Finset.sum_comm
      · rw [← Finset.sum_smul, hp.2, one_smul]
    rw [e1]
    have e2 : ∑ x ∈ S, π x • G x
        = ((dev * per : ℕ) : ℝ)⁻¹ • ∑ _d : Fin dev, ∑ _j : Fin per, ∑ x ∈ S, π x • G x := by
      simp only [sum_const, card_univ, Fintype.card_fin]
      rw [← mul_smul, ← Nat.cast_smul_eq_nsmul ℝ, smul_smul, inv_mul_cancel₀ (by positivity), one_smul]
    have e3 : ∀ d j, ∑ x ∈ S, (law p (fun ω => neg ω d j) x - π x) • G x
        = (∑ ω, p ω • G (neg ω d j)) - ∑ x ∈ S, π x • G x := by
      intro d j
      rw [hlaw, ← Finset.sum_sub_distrib]
      refine Finset.sum_congr rfl fun x _ => ?_
      ext v
      exact sub_mul _ _ _
    rw [e2, smul_sub, Finset.sum_congr rfl fun d _ => Finset.sum_congr rfl fun j _ => e3 d j]
    simp only [Finset.sum_sub_distrib, smul_sub]
    abel
  rw [hdiff, norm_smul, norm_inv, Real.norm_natCast, ← div_eq_inv_mul, ← mul_div_assoc]
  refine div_le_div_of_nonneg_right ?_ (Nat.cast_nonneg _)
  rw [Finset.mul_sum]
  refine (norm_sum_le _ _).trans (Finset.sum_le_sum fun d _ => ?_)
  rw [Finset.mul_sum]
  refine (norm_sum_le _ _).trans (Finset.sum_le_sum fun j _ => ?_)
  rw [l1, Finset.mul_sum]
  refine (norm_sum_le _ _).trans (Finset.sum_le_sum fun x hx => ?_)
  rw [norm_smul, Real.norm_eq_abs, mul_comm]
  exact mul_le_mul_of_nonneg_right (hM x hx) (abs_nonneg _)

/-- **C91.**  With negative samples distributed as the model, the expected gradient on which every update is based
is exactly the gradient of the negative log-likelihood of the batch. -/
theorem pcdGrad_unbiased {Ω : Type*} [Fintype Ω] [DecidableEq X] {dev per : ℕ} (hdev : 0 < dev) (hper : 0 < per)
    (S : Finset X) (hS : S.Nonempty) (forward : Θ → X → ℝ) (θ : Θ)
    (hG : ∀ x ∈ S, DifferentiableAt ℝ (fun t => forward t x) θ)
    (data : Fin (dev * per) → X) (hd : ∀ i, data i ∈ S)
    (p : Ω → ℝ) (hp : IsProb p) (neg : Ω → Fin dev → Fin per → X) (hneg : ∀ ω d j, neg ω d j ∈ S)
    (hlaw : ∀ d j, ∀ x ∈ S, law p (fun ω => neg ω d j) x = target S (fun x => Real.exp (forward θ x)) x) :
    ∑ ω, p ω • pcdGrad forward (shard data) (neg ω) θ = fderiv ℝ (negLogLik S forward data) θ := by
  obtain ⟨M, hM⟩ : ∃ M, ∀ x ∈ S, ‖fderiv ℝ (fun t => forward t x) θ‖ ≤ M :=
    ⟨∑ x ∈ S, ‖fderiv ℝ (fun t => forward t x) θ‖, fun x hx =>
      Finset.single_le_sum (f := fun x => ‖fderiv ℝ (fun t => forward t x) θ‖) (fun _ _ => norm_nonneg _) hx⟩
  have h := pcdGrad_bias hdev hper S hS forward θ (G := fun x => fderiv ℝ (fun t => forward t x) θ)
    (fun x hx => (hG x hx).hasFDerivAt) hM data hd p hp neg hneg
  have h0 : ∀ d j, l1 S (law p fun ω => neg ω d j) (target S fun x => Real.exp (forward θ x)) = 0 := by
    intro d j
    exact Finset.sum_eq_zero fun x hx => by rw [hlaw d j x hx, sub_self, abs_zero]
  simp only [h0, sum_const_zero, zero_div, mul_zero] at h
  exact sub_eq_zero.1 (norm_eq_zero.1 (le_antisymm h (norm_nonneg _)))

end General

/-! ### The restricted Boltzmann machine -/

/-- The parameters `b_v`, `b_h`, `w` as a vector space. -/
abbrev RBMSpace (V H : ℕ) := (Fin V → ℝ) × (Fin H → ℝ) × (Fin V → Fin H → ℝ)

/-- The model with these parameters. -/
def rbmOf {V H : ℕ} (θ : RBMSpace V H) : RBMParams V H := ⟨θ.1, θ.2.1, θ.2.2⟩

/-- `RBM.forward` (`rbm.py:42-53`) as a function of the parameters and of an integer sample. -/
noncomputable def rbmScore {V H : ℕ} (θ : RBMSpace V H) (x : Fin V → ℤ) : ℝ :=
  rbmForward (rbmOf θ) fun i => (x i : ℝ)

theorem rbmScore_differentiable {V H : ℕ} (x : Fin V → ℤ) : Differentiable ℝ fun θ : RBMSpace V H => rbmScore θ x := by
  have hl : ∀ j, Differentiable ℝ fun θ : RBMSpace V H => rbmLogitsH (rbmOf θ) (fun i => (x i : ℝ)) j := by
    intro j
    simp only [rbmLogitsH, rbmOf]
    fun_prop
  have hs : ∀ j, Differentiable ℝ fun θ : RBMSpace V H => softplus (rbmLogitsH (rbmOf θ) (fun i => (x i : ℝ)) j) :=
    fun j => ((hl j).exp.const_add 1).log fun θ => by positivity
  have hv : Differentiable ℝ fun θ : RBMSpace V H => ∑ i, (x i : ℝ) * (rbmOf θ).bv i := by
    simp only [rbmOf]
    fun_prop
  exact (Differentiable.fun_sum fun j _ => hs j).add hv

/-- **C91 (RBM, persistent chains at equilibrium).**  If the persistent chains have the model's distribution
before the `pcd_steps` block Gibbs steps of an update, then the expected gradient of the update is the
gradient of the negative log-likelihood.  `p` is the joint law of everything that is random; given the
start, the end of each chain has the law of `k` steps. -/
theorem rbm_pcd_unbiased {Ω : Type*} [Fintype Ω] {V H dev per : ℕ} (hdev : 0 < dev) (hper : 0 < per)
    (θ : RBMSpace V H) (data : Fin (dev * per) → Fin V → ℤ) (hd : ∀ i, data i ∈ validStates 2 V) (k : ℕ)
    (p : Ω → ℝ) (hp : IsProb p) (neg : Ω → Fin dev → Fin per → Fin V → ℤ)
    (hneg : ∀ ω d j, neg ω d j ∈ validStates 2 V)
    (hlaw : ∀ d j, ∀ y ∈ validStates 2 V, law p (fun ω => neg ω d j) y
      = ∑ x ∈ validStates 2 V, target (validStates 2 V) (fun x => Real.exp (rbmScore θ x)) x
          * iterate (validStates 2 V) (fun _ => rbmKernel (rbmOf θ)) k x y) :
    ∑ ω, p ω • pcdGrad rbmScore (shard data) (neg ω) θ
      = fderiv ℝ (negLogLik (validStates 2 V) rbmScore data) θ := by
  refine pcdGrad_unbiased hdev hper _ ⟨fun _ => 0, by simp [validStates]⟩ rbmScore θ
    (fun x _ => (rbmScore_differentiable x).differentiableAt) data hd p hp neg hneg fun d j y hy => ?_
  rw [hlaw d j y hy]
  exact push_target (rbm_blockgibbs_invariant (rbmOf θ) k) y hy

/-- **C91 (RBM, contrastive divergence).**  From any start of the chains the bias of the expected gradient falls
geometrically with the number of steps: `pcd_steps` (100 in the configuration) controls it. -/
theorem rbm_cd_bias {V H : ℕ} (θ : RBMSpace V H) :
    ∃ c A, 0 ≤ c ∧ c < 1 ∧ ∀ (Ω : Type) [Fintype Ω] (dev per : ℕ), 0 < dev → 0 < per →
      ∀ (data : Fin (dev * per) → Fin V → ℤ), (∀ i, data i ∈ validStates 2 V) →
      ∀ (start : Fin dev → Fin per → Fin V → ℤ), (∀ d j, start d j ∈ validStates 2 V) →
      ∀ (k : ℕ) (p : Ω → ℝ), IsProb p → ∀ (neg : Ω → Fin dev → Fin per → Fin V → ℤ),
      (∀ ω d j, neg ω d j ∈ validStates 2 V) →
      (∀ d j, ∀ y ∈ validStates 2 V, law p (fun ω => neg ω d j) y
        = iterate (validStates 2 V) (fun _ => rbmKernel (rbmOf θ)) k (start d j) y) →
      ‖(∑ ω, p ω • pcdGrad rbmScore (shard data) (neg ω) θ)
        - fderiv ℝ (negLogLik (validStates 2 V) rbmScore data) θ‖ ≤ A * c ^ k := by
  obtain ⟨c, h0, h1, hc⟩ := rbm_converges (rbmOf θ)
  obtain ⟨M, hM0, hM⟩ : ∃ M, 0 ≤ M ∧ ∀ x ∈ validStates 2 V, ‖fderiv ℝ (fun t => rbmScore t x) θ‖ ≤ M :=
    ⟨∑ x ∈ validStates 2 V, ‖fderiv ℝ (fun t : RBMSpace V H => rbmScore t x) θ‖,
      Finset.sum_nonneg fun _ _ => norm_nonneg _, fun x hx =>
      Finset.single_le_sum (f := fun x => ‖fderiv ℝ (fun t : RBMSpace V H => rbmScore t x) θ‖)
        (fun _ _ => norm_nonneg _) hx⟩
  refine ⟨c, M * 2, h0, h1, fun Ω _ dev per hdev hper data hd start hs k p hp neg hneg hlaw => ?_⟩
  refine (pcdGrad_bias hdev hper _ ⟨fun _ => 0, by simp [validStates]⟩ rbmScore θ
    (fun x _ => (rbmScore_differentiable x).differentiableAt.hasFDerivAt) hM data hd p hp neg hneg).trans ?_
  rw [mul_assoc]
  refine mul_le_mul_of_nonneg_left ?_ hM0
  rw [div_le_iff₀ (by positivity)]
  calc ∑ d, ∑ j, l1 (validStates 2 V) (law p fun ω => neg ω d j)
        (target (validStates 2 V) fun x => Real.exp (rbmScore θ x))
      ≤ ∑ _d : Fin dev, ∑ _j : Fin per, 2 * c ^ k := by
        refine Finset.sum_le_sum fun d _ => Finset.sum_le_sum fun j _ => ?_
        have := hc (start d j) (hs d j) k
        rw [Nat.div_one, add_zero] at this
        rw [l1_congr (hlaw d j) fun y _ => rfl]
        exact this
    _ = 2 * c ^ k * ((dev * per : ℕ) : ℝ) := by
        simp only [sum_const, card_univ, Fintype.card_fin, nsmul_eq_mul]
        push_cast
        ring

/-- The hypotheses hold for one chain whose end is drawn from the law of `k` steps. -/
example {V H : ℕ} (θ : RBMSpace V H) (k : ℕ) (x : Fin V → ℤ) (hx : x ∈ validStates 2 V) :
    let p : validStates 2 V → ℝ := fun ω => iterate (validStates 2 V) (fun _ => rbmKernel (rbmOf θ)) k x ω
    IsProb p ∧ ∀ y ∈ validStates 2 V, law p (fun ω => (ω : Fin V → ℤ)) y
      = iterate (validStates 2 V) (fun _ => rbmKernel (rbmOf θ)) k x y := by
  intro p
  have hst := stochastic_iterate (K := fun _ => rbmKernel (rbmOf θ))
    (fun _ => (rbm_blockgibbs_reversible (rbmOf θ)).1) k
  refine ⟨⟨fun ω => hst.1 x hx _, ?_⟩, fun y hy => ?_⟩
  · exact (Finset.sum_coe_sort (validStates 2 V) fun y =>
      iterate (validStates 2 V) (fun _ => rbmKernel (rbmOf θ)) k x y).trans (hst.2.1 x hx)
  · rw [law, Finset.sum_eq_single (⟨y, hy⟩ : validStates 2 V)]
    · simp [p]
    · intro b _ hb
      exact if_neg fun h => hb (Subtype.ext h)
    · simp

/-- One parameter and two states: `forward θ x = θ x` has the gradient `E x - mean x`. -/
example (θ : ℝ) : HasFDerivAt (negLogLik ({0, 1} : Finset ℤ) (fun (t : ℝ) x => t * x) ![(1 : ℤ), 1, 0])
    ((Real.exp θ / (1 + Real.exp θ) - 2 / 3) • ContinuousLinearMap.id ℝ ℝ) θ := by
  have h := negLogLik_hasFDerivAt (n := 3) (by norm_num) ({0, 1} : Finset ℤ) ⟨0, by simp⟩
    (fun (t : ℝ) x => t * x) ![(1 : ℤ), 1, 0] (by intro i; fin_cases i <;> simp) θ
    (G := fun x => (x : ℝ) • ContinuousLinearMap.id ℝ ℝ) fun x _ =>
      (hasFDerivAt_id (𝕜 := ℝ) θ).mul_const (x : ℝ)
  refine h.congr_fderiv ?_
  ext
  simp [target, Fin.sum_univ_three]
  norm_num

/-! ### Binarised training data -/

/-- **C91 (data).**  A pixel of the training images is on with probability its grey value. -/
theorem binarise_law {pixel : ℝ} (h0 : 0 ≤ pixel) (h1 : pixel ≤ 255) :
    lawU (fun _ : Unit => (1 : ℝ)) (fun _ u => binarise pixel u) true = pixel / 255 := by
  have e : {u : ℝ | u ∈ Set.Ico (0 : ℝ) 1 ∧ binarise pixel u = true} = Set.Ico 0 (pixel / 255) := by
    ext u
    simp only [binarise, Set.mem_Ico, decide_eq_true_eq, Set.mem_ofPred_eq]
    have : pixel / 255 ≤ 1 := by rw [div_le_one (by norm_num)]; exact h1
    constructor
    · rintro ⟨⟨a, _⟩, b⟩; exact ⟨a, b⟩
    · rintro ⟨a, b⟩; exact ⟨⟨a, by linarith⟩, b⟩
  simp only [lawU, e, Finset.univ_unique, sum_singleton, one_mul, Real.volume_Ico, sub_zero]
  exact ENNReal.toReal_ofReal (by positivity)

end Discs
