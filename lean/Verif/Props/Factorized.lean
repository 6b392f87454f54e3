import Verif.Model.Factorized
import Verif.Props.RBM

/-!
# C31: the Bernoulli model reports its true mean and variance; the categorical model factorises
-/

namespace Discs.Spec

open Finset

/-- Expectation of `u` under the distribution proportional to `w` on the finite set `S`. -/
noncomputable def mean {X : Type*} (S : Finset X) (w : X → ℝ) (u : X → ℝ) : ℝ :=
  (∑ x ∈ S, w x * u x) / ∑ x ∈ S, w x

/-- Variance of `u` under the distribution proportional to `w` on `S`. -/
noncomputable def variance {X : Type*} (S : Finset X) (w : X → ℝ) (u : X → ℝ) : ℝ :=
  mean S w fun x => (u x - mean S w u) ^ 2

end Discs.Spec

namespace Discs

open Finset Spec

theorem sum_validStates_two {D : ℕ} (F : (Fin D → ℤ) → ℝ) :
    ∑ x ∈ validStates 2 D, F x = ∑ v : Fin D → Bool, F (boolState v) := by
  symm
  refine Finset.sum_bij (fun v _ => boolState v) (fun v _ => boolState_mem v)
    (fun v _ v' _ h => boolState_inj h) (fun x hx => ?_) (fun v _ => rfl)
  obtain ⟨v, rfl⟩ := exists_boolState hx
  exact ⟨v, Finset.mem_univ _, rfl⟩

/-- One-site marginal of independent Bernoulli draws. -/
theorem flipLaw_marginal {n : ℕ} (p : Fin n → ℝ) (i : Fin n) (u : Bool → ℝ) :
    ∑ ω, flipLaw p ω * u (ω i) = p i * u true + (1 - p i) * u false := by
  have h := Fintype.prod_sum (f := fun (j : Fin n) (b : Bool) =>
    (if b then p j else 1 - p j) * if j = i then u b else 1)
  have h2 : ∀ ω : Fin n → Bool, flipLaw p ω * u (ω i) =
      ∏ j, (if ω j then p j else 1 - p j) * if j = i then u (ω j) else 1 := by
    intro ω
    rw [Finset.prod_mul_distrib, Finset.prod_ite_eq' Finset.univ i]
    simp [flipLaw]
  simp only [h2]
  rw [← h, Finset.prod_eq_single i]
  · simp
  · intro j _ hj
    simp [hj]
  · simp

/-- Bernoulli weights are product weights. -/
theorem bern_weight {D : ℕ} (p : Fin D → ℝ) (v : Fin D → Bool) :
    Real.exp (bernForward p fun j => (boolState v j : ℝ)) =
      flipLaw (fun j => sigmoid (p j)) v * ∏ j, (1 + Real.exp (p j)) := by
  rw [flipLaw_sigmoid, div_mul_cancel₀]
  · congr 1
    refine Finset.sum_congr rfl fun j _ => ?_
    simp only [boolState_cast]; unfold boolVal; split_ifs <;> simp
  · exact Finset.prod_ne_zero_iff.2 fun j _ => by positivity

theorem bern_mean {D : ℕ} (p : Fin D → ℝ) (i : Fin D) (u : ℤ → ℝ) :
    mean (validStates 2 D) (fun x => Real.exp (bernForward p fun j => (x j : ℝ)))
        (fun x => u (x i)) =
      sigmoid (p i) * u 1 + (1 - sigmoid (p i)) * u 0 := by
  unfold mean
  rw [sum_validStates_two, sum_validStates_two]
  simp only [bern_weight]
  have hZ : (∏ j, (1 + Real.exp (p j))) ≠ 0 :=
    Finset.prod_ne_zero_iff.2 fun j _ => by positivity
  have hs : ∑ v : Fin D → Bool, flipLaw (fun j => sigmoid (p j)) v = 1 := by
    have := flipLaw_marginal (fun j => sigmoid (p j)) i fun _ => 1
    simpa using this
  rw [← Finset.sum_mul, hs, one_mul]
  have hm := flipLaw_marginal (fun j => sigmoid (p j)) i fun b => u (if b then 1 else 0)
  have e : ∀ v : Fin D → Bool, flipLaw (fun j => sigmoid (p j)) v * (∏ j, (1 + Real.exp (p j))) *
      u (boolState v i) = (flipLaw (fun j => sigmoid (p j)) v * u (if v i then 1 else 0)) *
        ∏ j, (1 + Real.exp (p j)) := by
    intro v; simp only [boolState]; ring
  simp only [e]
  rw [← Finset.sum_mul, hm, mul_div_cancel_right₀ _ hZ]
  simp

theorem bernExpected_eq {D : ℕ} (p : Fin D → ℝ) (i : Fin D) : bernExpected p i = sigmoid (p i) := by
  rw [sigmoid_eq', bernExpected, add_comm]

/-- **C31 (mean).** -/
theorem bernoulli_mean {D : ℕ} (p : Fin D → ℝ) (i : Fin D) :
    bernExpected p i = mean (validStates 2 D)
      (fun x => Real.exp (bernForward p fun j => (x j : ℝ))) fun x => (x i : ℝ) := by
  rw [bern_mean p i fun z => (z : ℝ), bernExpected_eq]; simp

/-- **C31 (variance).** -/
theorem bernoulli_variance {D : ℕ} (p : Fin D → ℝ) (i : Fin D) :
    bernVar p i = variance (validStates 2 D)
      (fun x => Real.exp (bernForward p fun j => (x j : ℝ))) fun x => (x i : ℝ) := by
  unfold variance
  rw [← bernoulli_mean, bern_mean p i fun z => ((z : ℝ) - bernExpected p i) ^ 2, bernVar,
    bernExpected_eq]
  push_cast; ring

/-- Concrete case: parameters `log 3`: mean `3/4`, variance `3/16`. -/
example : bernExpected (fun _ : Fin 2 => Real.log 3) 0 = 3 / 4 ∧
    bernVar (fun _ : Fin 2 => Real.log 3) 0 = 3 / 16 := by
  have e : Real.exp (Real.log 3) = 3 := Real.exp_log (by norm_num)
  constructor <;> simp [bernVar, bernExpected, e] <;> norm_num

/-- The categorical model is a product of per-site softmax distributions. -/
theorem categ_weight {D C : ℕ} (p : Fin D → Fin C → ℝ) (x : Fin D → ℤ) (v : Fin D → Fin C)
    (hx : ∀ j, x j = (v j : ℕ)) :
    Real.exp (categForward p x) / (∑ y ∈ validStates C D, Real.exp (categForward p y)) =
      ∏ j, softmax (p j) (v j) := by
  have hf : ∀ (y : Fin D → ℤ) (w : Fin D → Fin C), (∀ j, y j = (w j : ℕ)) →
      Real.exp (categForward p y) = ∏ j, Real.exp (p j (w j)) := by
    intro y w hy
    unfold categForward categNet
    rw [Real.exp_sum]
    refine Finset.prod_congr rfl fun j _ => ?_
    congr 1
    rw [Finset.sum_eq_single (w j)]
    · simp [oneHot, hy]
    · intro c _ hc
      have : ¬ ((c : ℕ) : ℤ) = y j := by
        rw [hy]; intro h; exact hc (Fin.ext (by exact_mod_cast h))
      simp [oneHot, this]
    · simp
  have hsum : ∑ y ∈ validStates C D, Real.exp (categForward p y) =
      ∑ w : Fin D → Fin C, ∏ j, Real.exp (p j (w j)) := by
    symm
    refine Finset.sum_bij (fun w _ j => ((w j : ℕ) : ℤ)) ?_ ?_ ?_ ?_
    · intro w _
      simp only [validStates, Fintype.mem_piFinset, Finset.mem_Ico]
      exact fun j => ⟨by positivity, by exact_mod_cast (w j).2⟩
    · intro w _ w' _ h
      funext j
      exact Fin.ext (by exact_mod_cast congrFun h j)
    · intro y hy
      have hy' := fun j => Finset.mem_Ico.1 (Fintype.mem_piFinset.1 hy j)
      refine ⟨fun j => ⟨(y j).toNat, by have := hy' j; omega⟩, Finset.mem_univ _, funext fun j => ?_⟩
      have := hy' j
      simp only []; omega
    · intro w _
      exact (hf _ w fun j => rfl).symm
  have hprod := Fintype.prod_sum (f := fun (j : Fin D) (c : Fin C) => Real.exp (p j c))
  rw [hsum, ← hprod, hf x v hx, ← Finset.prod_div_distrib]
  rfl

end Discs
