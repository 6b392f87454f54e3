import Verif.Model.RBM
import Verif.Lemmas.SiteMH
import Verif.Lemmas.Jax

/-!
# C09, C37: the RBM energy is the exact log-marginal, and RBM block Gibbs preserves it
-/

namespace Discs.Spec

/-- Joint weight of a visible configuration `v` and a hidden configuration `h` (0/1 values) of a
restricted Boltzmann machine with couplings `w` and biases `a` (visible), `b` (hidden). -/
noncomputable def rbmJoint {V H : ℕ} (w : Fin V → Fin H → ℝ) (a : Fin V → ℝ) (b : Fin H → ℝ)
    (v : Fin V → ℝ) (h : Fin H → Bool) : ℝ :=
  Real.exp ((∑ i, ∑ j, if h j then v i * w i j else 0) + (∑ i, a i * v i) +
    ∑ j, if h j then b j else 0)

/-- Joint weight when the visible units take one of `C` values. -/
noncomputable def crbmJoint {V H C : ℕ} (w : Fin H → Fin V → Fin C → ℝ) (a : Fin V → Fin C → ℝ)
    (b : Fin H → ℝ) (v : Fin V → Fin C) (h : Fin H → Bool) : ℝ :=
  Real.exp ((∑ i, ∑ j, if h j then w j i (v i) else 0) + (∑ i, a i (v i)) +
    ∑ j, if h j then b j else 0)

end Discs.Spec

namespace Discs

open Finset Spec

theorem exp_softplus (z : ℝ) : Real.exp (softplus z) = 1 + Real.exp z :=
  Real.exp_log (by positivity)

theorem one_sub_sigmoid' (z : ℝ) : 1 - sigmoid z = 1 / (1 + Real.exp z) := by
  unfold sigmoid
  rw [Real.exp_neg]
  have := Real.exp_pos z
  field_simp
  ring

theorem sigmoid_eq' (z : ℝ) : sigmoid z = Real.exp z / (1 + Real.exp z) := by
  unfold sigmoid
  rw [Real.exp_neg]
  have := Real.exp_pos z
  field_simp
  ring

/-- A product Bernoulli law with log-odds `z` is the normalised exponential family. -/
theorem flipLaw_sigmoid {n : ℕ} (z : Fin n → ℝ) (ω : Fin n → Bool) :
    flipLaw (fun j => sigmoid (z j)) ω =
      Real.exp (∑ j, if ω j then z j else 0) / ∏ j, (1 + Real.exp (z j)) := by
  unfold flipLaw
  rw [Real.exp_sum, ← Finset.prod_div_distrib]
  refine Finset.prod_congr rfl fun j _ => ?_
  split_ifs
  · exact sigmoid_eq' _
  · rw [one_sub_sigmoid', Real.exp_zero]

theorem sum_exp_bool {n : ℕ} (z : Fin n → ℝ) :
    ∑ ω : Fin n → Bool, Real.exp (∑ j, if ω j then z j else 0) = ∏ j, (1 + Real.exp (z j)) := by
  have := Fintype.prod_sum (f := fun (j : Fin n) (b : Bool) => Real.exp (if b then z j else 0))
  simp only [Real.exp_sum]
  rw [← this]
  refine Finset.prod_congr rfl fun j _ => ?_
  simp [add_comm]

theorem rbmJoint_eq {V H : ℕ} (P : RBMParams V H) (v : Fin V → ℝ) (h : Fin H → Bool) :
    rbmJoint P.w P.bv P.bh v h =
      Real.exp (∑ j, if h j then rbmLogitsH P v j else 0) * Real.exp (∑ i, v i * P.bv i) := by
  unfold rbmJoint rbmLogitsH
  rw [← Real.exp_add]
  congr 1
  rw [Finset.sum_comm, add_right_comm, ← Finset.sum_add_distrib]
  congr 1
  · refine Finset.sum_congr rfl fun j _ => ?_
    split_ifs <;> simp
  · exact Finset.sum_congr rfl fun i _ => mul_comm _ _

/-- The joint weight organised by visible units, for 0/1 visible values. -/
theorem rbmJoint_eq' {V H : ℕ} (P : RBMParams V H) (v : Fin V → Bool) (h : Fin H → Bool) :
    rbmJoint P.w P.bv P.bh (fun i => boolVal (v i)) h =
      Real.exp (∑ i, if v i then rbmLogitsV P (fun j => boolVal (h j)) i else 0) *
        Real.exp (∑ j, if h j then P.bh j else 0) := by
  unfold rbmJoint rbmLogitsV
  rw [← Real.exp_add]
  congr 2
  rw [← Finset.sum_add_distrib]
  refine Finset.sum_congr rfl fun i _ => ?_
  cases hv : v i
  · simp [boolVal, hv]
  · simp [boolVal, hv]

/-- **C37 (marginal).** `exp(forward v)` is the sum of the joint weight over all hidden
configurations, for every real-valued `v` (in particular every 0/1 sample). -/
theorem rbm_forward_marginal {V H : ℕ} (P : RBMParams V H) (v : Fin V → ℝ) :
    Real.exp (rbmForward P v) = ∑ h : Fin H → Bool, rbmJoint P.w P.bv P.bh v h := by
  simp only [rbmJoint_eq]
  rw [← Finset.sum_mul, sum_exp_bool]
  unfold rbmForward
  rw [Real.exp_add, Real.exp_sum]
  congr 1
  exact Finset.prod_congr rfl fun j _ => exp_softplus _

/-- **C37 (marginal, categorical model).** -/
theorem crbm_forward_marginal {V H C : ℕ} (P : CRBMParams V H C) (x : Fin V → ℤ) (v : Fin V → Fin C)
    (hx : ∀ i, x i = (v i : ℕ)) :
    Real.exp (crbmForward P x) = ∑ h : Fin H → Bool, crbmJoint P.w P.bv P.bh v h := by
  have hone : ∀ i (g : Fin C → ℝ), ∑ c, oneHot C (x i) c * g c = g (v i) := by
    intro i g
    rw [Finset.sum_eq_single (v i)]
    · simp [oneHot, hx]
    · intro c _ hc
      have : ¬ ((c : ℕ) : ℤ) = x i := by
        rw [hx]; intro h; exact hc (Fin.ext (by exact_mod_cast h))
      simp [oneHot, this]
    · simp
  have hj : ∀ h : Fin H → Bool, crbmJoint P.w P.bv P.bh v h =
      Real.exp (∑ j, if h j then (∑ i, P.w j i (v i)) + P.bh j else 0) *
        Real.exp (∑ i, P.bv i (v i)) := by
    intro h
    unfold crbmJoint
    rw [← Real.exp_add]
    congr 1
    rw [Finset.sum_comm, add_right_comm, ← Finset.sum_add_distrib]
    congr 1
    refine Finset.sum_congr rfl fun j _ => ?_
    split_ifs <;> simp
  simp only [hj]
  rw [← Finset.sum_mul, sum_exp_bool]
  unfold crbmForward crbmNet
  rw [Real.exp_add, Real.exp_sum]
  simp only [hone, exp_softplus]

/-- **C37 (hidden given visible).** The probability with which `step_h` returns `h` is the exact
conditional of the joint. -/
theorem rbm_stepH_conditional {V H : ℕ} (P : RBMParams V H) (v : Fin V → ℝ) (h : Fin H → Bool) :
    flipLaw (rbmProbH P v) h =
      rbmJoint P.w P.bv P.bh v h / ∑ h' : Fin H → Bool, rbmJoint P.w P.bv P.bh v h' := by
  unfold rbmProbH
  rw [flipLaw_sigmoid]
  simp only [rbmJoint_eq]
  rw [← Finset.sum_mul, sum_exp_bool, mul_div_mul_right _ _ (Real.exp_ne_zero _)]

/-- **C37 (visible given hidden).** The probability with which `step_v` returns `v` is the exact
conditional of the joint. -/
theorem rbm_stepV_conditional {V H : ℕ} (P : RBMParams V H) (v : Fin V → Bool) (h : Fin H → Bool) :
    flipLaw (rbmProbV P fun j => boolVal (h j)) v =
      rbmJoint P.w P.bv P.bh (fun i => boolVal (v i)) h /
        ∑ v' : Fin V → Bool, rbmJoint P.w P.bv P.bh (fun i => boolVal (v' i)) h := by
  unfold rbmProbV
  rw [flipLaw_sigmoid]
  simp only [rbmJoint_eq']
  rw [← Finset.sum_mul, sum_exp_bool, mul_div_mul_right _ _ (Real.exp_ne_zero _)]

/-- The visible bias initialisation reproduces the data mean: with zero weights every visible unit
is drawn with probability equal to its data mean. -/
theorem rbm_init_mean {V H : ℕ} (mean : Fin V → ℝ) (hm : ∀ i, 0 < mean i ∧ mean i < 1)
    (h : Fin H → ℝ) (bh : Fin H → ℝ) (i : Fin V) :
    rbmProbV ⟨rbmInitBv (some mean), bh, fun _ _ => 0⟩ h i = mean i := by
  obtain ⟨h0, h1⟩ := hm i
  simp only [rbmProbV, rbmLogitsV, rbmInitBv, mul_zero, Finset.sum_const_zero, zero_add]
  have h2 : 0 < 1 - mean i := by linarith
  rw [sigmoid_eq', Real.exp_log (div_pos h0 h2)]
  field_simp
  ring

/-- The 0/1 sample written by a boolean array. -/
def boolState {V : ℕ} (v : Fin V → Bool) : Fin V → ℤ := fun i => if v i then 1 else 0

theorem boolState_mem {V : ℕ} (v : Fin V → Bool) : boolState v ∈ validStates 2 V := by
  simp only [validStates, Fintype.mem_piFinset, boolState]
  intro i; split_ifs <;> simp

theorem boolState_inj {V : ℕ} : Function.Injective (boolState (V := V)) := by
  intro v v' h
  funext i
  have := congrFun h i
  simp only [boolState] at this
  cases hv : v i <;> cases hv' : v' i <;> simp_all

theorem exists_boolState {V : ℕ} {x : Fin V → ℤ} (hx : x ∈ validStates 2 V) :
    ∃ v, boolState v = x := by
  refine ⟨fun i => decide (x i = 1), funext fun i => ?_⟩
  have h := Finset.mem_Ico.1 (Fintype.mem_piFinset.1 hx i)
  by_cases h1 : x i = 1
  · simp [boolState, h1]
  · have h2 := h.1
    have h3 : x i < 2 := h.2
    simp [boolState, h1]; omega

theorem boolState_cast {V : ℕ} (v : Fin V → Bool) (i : Fin V) :
    ((boolState v i : ℤ) : ℝ) = boolVal (v i) := by
  simp only [boolState, boolVal]; split_ifs <;> simp

/-- The transition probability between two visible configurations is the sum over the hidden ones
of the two exact conditionals. -/
theorem rbmKernel_eq {V H : ℕ} (P : RBMParams V H) (x : Fin V → ℤ) (v : Fin V → Bool) :
    rbmKernel P x (boolState v) = ∑ h : Fin H → Bool,
      flipLaw (rbmProbH P fun i => (x i : ℝ)) h * flipLaw (rbmProbV P fun j => boolVal (h j)) v := by
  unfold rbmKernel law
  rw [Fintype.sum_prod_type]
  refine Finset.sum_congr rfl fun h _ => ?_
  rw [Finset.sum_eq_single v]
  · exact if_pos rfl
  · intro v' _ hv
    exact if_neg fun hh => hv (boolState_inj hh)
  · simp

/-- **C09.** RBM block Gibbs is a Markov kernel on 0/1 samples, reversible with respect to the
visible marginal `exp(forward)` the binary RBM reports, for every weights, biases and sizes. -/
theorem rbm_blockgibbs_reversible {V H : ℕ} (P : RBMParams V H) :
    Stochastic (validStates 2 V) (rbmKernel P) ∧
      Reversible (validStates 2 V) (fun x => Real.exp (rbmForward P fun i => (x i : ℝ)))
        (rbmKernel P) := by
  constructor
  · refine stochastic_law (fun x _ => ⟨fun d => ?_, ?_⟩) fun x _ d => boolState_mem d.2
    · refine mul_nonneg ((isProb_flipLaw fun j => ?_).1 _) ((isProb_flipLaw fun j => ?_).1 _)
      · exact ⟨by unfold rbmProbH sigmoid; positivity,
          by unfold rbmProbH; have := one_sub_sigmoid' (rbmLogitsH P (fun i => (x i : ℝ)) j)
             have h2 : 0 ≤ 1 / (1 + Real.exp (rbmLogitsH P (fun i => (x i : ℝ)) j)) := by positivity
             linarith⟩
      · exact ⟨by unfold rbmProbV sigmoid; positivity,
          by unfold rbmProbV; have := one_sub_sigmoid' (rbmLogitsV P (fun j => boolVal (d.1 j)) j)
             have h2 : 0 ≤ 1 / (1 + Real.exp (rbmLogitsV P (fun j => boolVal (d.1 j)) j)) := by
               positivity
             linarith⟩
    · unfold rbmDrawLaw
      rw [Fintype.sum_prod_type]
      have hs : ∀ z : ℝ, 0 ≤ sigmoid z ∧ sigmoid z ≤ 1 := fun z =>
        ⟨by unfold sigmoid; positivity, by
          have := one_sub_sigmoid' z
          have h2 : 0 ≤ 1 / (1 + Real.exp z) := by positivity
          linarith⟩
      simp only [← Finset.mul_sum]
      have h1 : ∀ h : Fin H → Bool, ∑ v, flipLaw (rbmProbV P fun j => boolVal (h j)) v = 1 :=
        fun h => (isProb_flipLaw fun j => hs _).2
      simp only [h1, mul_one]
      exact (isProb_flipLaw fun j => hs _).2
  · intro x hx y hy
    obtain ⟨v, rfl⟩ := exists_boolState hx
    obtain ⟨v', rfl⟩ := exists_boolState hy
    rw [rbmKernel_eq, rbmKernel_eq]
    simp only [boolState_cast, rbm_stepH_conditional, rbm_stepV_conditional]
    rw [rbm_forward_marginal, rbm_forward_marginal, Finset.mul_sum, Finset.mul_sum]
    refine Finset.sum_congr rfl fun h _ => ?_
    have hp : ∀ u : Fin V → ℝ, (∑ h, rbmJoint P.w P.bv P.bh u h) ≠ 0 := fun u => by
      rw [← rbm_forward_marginal]; exact Real.exp_ne_zero _
    rw [← mul_assoc, ← mul_assoc, mul_div_cancel₀ _ (hp _), mul_div_cancel₀ _ (hp _)]
    ring

/-- **C09 (invariance).** Any number of RBM block Gibbs steps leaves the marginal invariant. -/
theorem rbm_blockgibbs_invariant {V H : ℕ} (P : RBMParams V H) (n : ℕ) :
    Invariant (validStates 2 V) (fun x => Real.exp (rbmForward P fun i => (x i : ℝ)))
      (iterate (validStates 2 V) (fun _ => rbmKernel P) n) :=
  invariant_iterate (fun _ => invariant_of_reversible (rbm_blockgibbs_reversible P).2
    (rbm_blockgibbs_reversible P).1) n

/-- The sampler returns a pair: its state never changes, and no acceptance rate is returned. -/
theorem rbm_step_state {B V H : ℕ} {σ : Type*} (x : Fin B → Fin V → ℤ) (h : Fin B → Fin H → Bool)
    (v : Fin B → Fin V → Bool) (s : σ) : (rbmStep x h v s).2 = s := rfl

/-- Concrete case: one visible, one hidden unit, coupling `log 2`, no biases.  The marginal weights
are `2` and `3`, and the chain moves `0 → 1` with probability `7/12`. -/
example : rbmKernel (⟨fun _ => 0, fun _ => 0, fun _ _ => Real.log 2⟩ : RBMParams 1 1)
    (boolState fun _ => false) (boolState fun _ => true) = 7 / 12 := by
  have e2 : Real.exp (Real.log 2) = 2 := Real.exp_log (by norm_num)
  rw [rbmKernel_eq, ← Equiv.sum_comp (Equiv.funUnique (Fin 1) Bool).symm]
  simp [boolState, flipLaw, rbmProbH, rbmProbV, rbmLogitsH, rbmLogitsV, boolVal, sigmoid_eq', e2]
  norm_num

end Discs
