import Verif.Model.FHMM
import Verif.Lemmas.SiteMH
import Verif.Lemmas.Jax
import Mathlib.Logic.Equiv.Fin.Basic
import Mathlib.Tactic.IntervalCases

/-!
# C36, C60: factorial hidden Markov models
-/

namespace Discs

open Finset Spec

/-- Path weights of a Markov chain sum to one. -/
theorem sum_chain {A : Type*} [Fintype A] {μ : A → ℝ} {T : A → A → ℝ} (hμ : ∑ a, μ a = 1)
    (hT : ∀ a, ∑ b, T a b = 1) (n : ℕ) :
    ∑ x : Fin (n + 1) → A, μ (x 0) * ∏ t : Fin n, T (x t.castSucc) (x t.succ) = 1 := by
  induction n with
  | zero =>
    simp only [Finset.univ_eq_empty, Finset.prod_empty, mul_one]
    rw [← Equiv.sum_comp (Equiv.funUnique (Fin 1) A).symm]
    simpa using hμ
  | succ n ih =>
    rw [← Equiv.sum_comp (Fin.snocEquiv fun _ : Fin (n + 1 + 1) => A), Fintype.sum_prod_type_right]
    rw [← ih]
    refine Finset.sum_congr rfl fun x _ => ?_
    have h1 : ∀ a : A, (Fin.snocEquiv fun _ : Fin (n + 1 + 1) => A) (a, x) 0 = x 0 := by
      intro a
      exact Fin.snoc_castSucc (α := fun _ => A) a x 0
    have h2 : ∀ a : A, ∏ t : Fin (n + 1), T ((Fin.snocEquiv fun _ : Fin (n + 1 + 1) => A) (a, x) t.castSucc)
        ((Fin.snocEquiv fun _ : Fin (n + 1 + 1) => A) (a, x) t.succ) =
        (∏ t : Fin n, T (x t.castSucc) (x t.succ)) * T (x (Fin.last n)) a := by
      intro a
      rw [Fin.prod_univ_castSucc]
      congr 1
      · refine Finset.prod_congr rfl fun t _ => ?_
        congr 1
        · exact Fin.snoc_castSucc (α := fun _ => A) a x _
        · rw [Fin.succ_castSucc]
          exact Fin.snoc_castSucc (α := fun _ => A) a x _
      · congr 1
        · exact Fin.snoc_castSucc (α := fun _ => A) a x _
        · rw [Fin.succ_last]
          exact Fin.snoc_last (α := fun _ => A) a x
    simp only [h1, h2]
    rw [← Finset.mul_sum, ← Finset.mul_sum, hT, mul_one]

/-! ### Binary -/

theorem exp_fhmmLogPx {p : ℝ} (h0 : 0 < p) (h1 : p < 1) (b : Bool) :
    Real.exp (fhmmLogPx (if b then 1 else 0) p) = if b then p else 1 - p := by
  have h2 : 0 < 1 - p := by linarith
  unfold fhmmLogPx
  cases b
  · simp [Real.exp_log h2]
  · simp [Real.exp_log h0]

/-- **C36 (binary).** For `alpha, beta` in `(0,1)` the state part of the log-likelihood is the log
of the probability with which the model's own sampler draws the state sequences, … -/
theorem fhmm_prior_is_sampler_law {n K : ℕ} {alpha beta : ℝ} (ha : 0 < alpha ∧ alpha < 1)
    (hb : 0 < beta ∧ beta < 1) (x : Fin (n + 1) → Fin K → Bool) :
    Real.exp (fhmmLogpX alpha beta fun t k => if x t k then 1 else 0) =
      fhmmSampleProb alpha beta x := by
  unfold fhmmLogpX fhmmSampleProb
  rw [Real.exp_add, Real.exp_sum, Real.exp_sum]
  congr 1
  · unfold flipLaw
    refine Finset.prod_congr rfl fun k _ => ?_
    rw [exp_fhmmLogPx ha.1 ha.2, one_mul]
  · refine Finset.prod_congr rfl fun t _ => ?_
    rw [Real.exp_sum]
    unfold flipLaw
    refine Finset.prod_congr rfl fun k _ => ?_
    have hb0 : 0 < 1 - beta := by linarith
    have h := exp_fhmmLogPx (p := 1 - beta) hb0 (by linarith)
    cases h1 : x t.castSucc k <;> cases h2 : x t.succ k
    · have := h false
      simp only [Bool.false_eq_true, if_false] at this
      simp [fhmmRowProb, h1, h2, this]
    · have := h true
      simp only [if_true] at this
      simp [fhmmRowProb, h1, h2, this]
    · have := h true
      simp only [if_true] at this
      simp [fhmmRowProb, h1, h2, this]
    · have := h false
      simp only [Bool.false_eq_true, if_false] at this
      simp [fhmmRowProb, h1, h2, this]

/-- … which is a probability distribution over all state sequences. -/
theorem fhmm_prior_normalised {n K : ℕ} {alpha beta : ℝ} (ha : 0 < alpha ∧ alpha < 1)
    (hb : 0 < beta ∧ beta < 1) :
    IsProb fun x : Fin (n + 1) → Fin K → Bool =>
      Real.exp (fhmmLogpX alpha beta fun t k => if x t k then 1 else 0) := by
  refine ⟨fun x => (Real.exp_pos _).le, ?_⟩
  simp only [fhmm_prior_is_sampler_law ha hb]
  refine sum_chain (μ := flipLaw fun _ => 1 * alpha)
    (T := fun a => flipLaw (fhmmRowProb beta a)) ?_ (fun a => ?_) n
  · exact (isProb_flipLaw fun j => by rw [one_mul]; exact ⟨ha.1.le, ha.2.le⟩).2
  · refine (isProb_flipLaw fun j => ?_).2
    unfold fhmmRowProb
    split_ifs
    · simp only [mul_one, sub_self, mul_zero, add_zero]; exact ⟨hb.1.le, hb.2.le⟩
    · simp only [mul_zero, sub_zero, mul_one, zero_add]; constructor <;> linarith

/-- Concrete case: three steps of one chain staying at 1, `alpha = 1/2`, `beta = 3/4`:
probability `1/2 · 3/4 · 3/4`. -/
example : Real.exp (fhmmLogpX (n := 2) (K := 1) (1 / 2) (3 / 4) fun _ _ => 1) = 9 / 32 := by
  have h := fhmm_prior_is_sampler_law (n := 2) (K := 1) (alpha := 1 / 2) (beta := 3 / 4)
    (by norm_num) (by norm_num) (fun _ _ => true)
  simp only [if_true] at h
  rw [h]
  simp [fhmmSampleProb, flipLaw, fhmmRowProb]
  norm_num

/-! ### Categorical -/

/-- Diagonal entry of the transition matrix. -/
noncomputable def cfhmmDiag (C : ℕ) (beta : ℝ) : ℝ :=
  let a := beta - (1 - beta) / ((C : ℝ) - 1)
  a + (1 - a) / ((C : ℝ) - 1)

theorem cfhmmBeta_eq (C : ℕ) (beta : ℝ) (i j : Fin C) :
    cfhmmBeta C beta i j = if i = j then cfhmmDiag C beta else 1 / ((C : ℝ) - 1) := by
  unfold cfhmmBeta cfhmmDiag
  split_ifs <;> simp

theorem cfhmmDiag_pos {C : ℕ} (hC : 2 ≤ C) {beta : ℝ} (h0 : 0 ≤ beta) :
    0 < cfhmmDiag C beta := by
  have hc : (2 : ℝ) ≤ C := by exact_mod_cast hC
  have hc1 : (0 : ℝ) < (C : ℝ) - 1 := by linarith
  have e : cfhmmDiag C beta = (beta * C * ((C : ℝ) - 2) + 1) / ((C : ℝ) - 1) ^ 2 := by
    unfold cfhmmDiag; field_simp; ring
  rw [e]
  have h1 : 0 ≤ beta * C * ((C : ℝ) - 2) :=
    mul_nonneg (mul_nonneg h0 (by linarith)) (by linarith)
  positivity

theorem cfhmmDiag_le_one {C : ℕ} (hC : 2 ≤ C) {beta : ℝ} (h1 : beta ≤ 1) :
    cfhmmDiag C beta ≤ 1 := by
  have hc : (2 : ℝ) ≤ C := by exact_mod_cast hC
  have hc1 : (0 : ℝ) < (C : ℝ) - 1 := by linarith
  have e : cfhmmDiag C beta = (beta * C * ((C : ℝ) - 2) + 1) / ((C : ℝ) - 1) ^ 2 := by
    unfold cfhmmDiag; field_simp; ring
  rw [e, div_le_one (by positivity)]
  have h2 : 0 ≤ (C : ℝ) * ((C : ℝ) - 2) := mul_nonneg (by linarith) (by linarith)
  nlinarith

theorem cfhmm_row_sum {C : ℕ} (hC : 2 ≤ C) (beta : ℝ) (i : Fin C) :
    ∑ j, cfhmmBeta C beta i j = 1 + cfhmmDiag C beta := by
  have hc : (2 : ℝ) ≤ C := by exact_mod_cast hC
  have hc1 : ((C : ℝ) - 1) ≠ 0 := by linarith
  simp only [cfhmmBeta_eq]
  rw [← Finset.add_sum_erase _ _ (Finset.mem_univ i), if_pos rfl]
  have : ∑ j ∈ Finset.univ.erase i, (if i = j then cfhmmDiag C beta else 1 / ((C : ℝ) - 1)) = 1 := by
    rw [Finset.sum_congr rfl (g := fun _ => 1 / ((C : ℝ) - 1))
      (fun j hj => if_neg fun h => Finset.ne_of_mem_erase hj h.symm)]
    rw [Finset.sum_const, Finset.card_erase_of_mem (Finset.mem_univ i), Finset.card_univ,
      Fintype.card_fin, nsmul_eq_mul, Nat.cast_sub (by omega)]
    push_cast
    field_simp
  rw [this, add_comm]

/-- **C36 is false of the categorical model.** For every number of categories and every `beta` in
`[0,1]`, every row of the transition matrix sums to more than one. -/
theorem cfhmm_rows_exceed_one {C : ℕ} (hC : 2 ≤ C) {beta : ℝ} (h0 : 0 ≤ beta) (i : Fin C) :
    1 < ∑ j, cfhmmBeta C beta i j := by
  rw [cfhmm_row_sum hC]; linarith [cfhmmDiag_pos hC h0]

/-- Consequence: whatever `beta ≤ 1` is configured, the normalised probability of staying in the
same category is at most one half. -/
theorem cfhmm_stay_at_most_half {C : ℕ} (hC : 2 ≤ C) {beta : ℝ} (h0 : 0 ≤ beta) (h1 : beta ≤ 1)
    (i : Fin C) : cfhmmBeta C beta i i / ∑ j, cfhmmBeta C beta i j ≤ 1 / 2 := by
  have hp := cfhmmDiag_pos hC h0
  have hl := cfhmmDiag_le_one hC h1
  rw [cfhmm_row_sum hC, cfhmmBeta_eq, if_pos rfl, div_le_div_iff₀ (by linarith) (by norm_num)]
  linarith

/-- The initial distribution is normalised. -/
theorem cfhmm_alpha_sum {C : ℕ} (alpha : ℝ) (u : Fin (C + 1) → ℝ) (hu : ∑ i : Fin C, u i.succ ≠ 0) :
    ∑ i, cfhmmAlpha alpha u i = 1 := by
  rw [Fin.sum_univ_succ]
  simp only [cfhmmAlpha, Fin.cases_zero, Fin.cases_succ]
  rw [← Finset.sum_div, ← Finset.mul_sum, mul_div_assoc, div_self hu]
  ring

theorem gamma_one_add_one : Real.Gamma (1 + 1) = 1 := by
  rw [Real.Gamma_add_one one_ne_zero, Real.Gamma_one, mul_one]

theorem lgamma_one_add_oneHot {C : ℕ} (v c : Fin C) : lgamma (oneHot C ((v : ℕ) : ℤ) c + 1) = 0 := by
  unfold oneHot lgamma
  split_ifs
  · rw [gamma_one_add_one, Real.log_one]
  · rw [zero_add, Real.Gamma_one, Real.log_one]

theorem oneHot_sum {C : ℕ} (v : Fin C) (g : Fin C → ℝ) :
    ∑ c, oneHot C ((v : ℕ) : ℤ) c * g c = g v := by
  rw [Finset.sum_eq_single v]
  · simp [oneHot]
  · intro c _ hc
    have : ¬ ((c : ℕ) : ℤ) = ((v : ℕ) : ℤ) := fun h => hc (Fin.ext (by exact_mod_cast h))
    simp only [oneHot, if_neg this, zero_mul]
  · simp

theorem softmax_log {Ω : Type*} [Fintype Ω] {p : Ω → ℝ} (hp : ∀ ω, 0 < p ω) (ω : Ω) :
    softmax (fun ω => Real.log (p ω)) ω = p ω / ∑ ω', p ω' := by
  unfold softmax
  simp only [Real.exp_log (hp _)]

/-- **C36 (categorical), what remains (partial).**  The state part of the log-likelihood is the log
of the sampler's law up to the constant `(l-1) · k · log(1 + diag)`, because all rows have the same
sum; so the model is still a correct unnormalised target.  Missing: the rows do not sum to one
(`cfhmm_rows_exceed_one`), so it is not the log of a probability. -/
theorem cfhmm_prior_proportional_partial {n K C : ℕ} (hC : 2 ≤ C) {beta : ℝ} (h0 : 0 ≤ beta)
    (a : Fin C → ℝ) (ha : ∀ c, 0 < a c) (ha1 : ∑ c, a c = 1) (v : Fin (n + 1) → Fin K → Fin C) :
    Real.exp (cfhmmLogpX (fun c => Real.log (a c)) (fun i j => Real.log (cfhmmBeta C beta i j))
        (cfhmmOneHot v)) =
      (1 + cfhmmDiag C beta) ^ (n * K) *
        cfhmmSampleProb (fun c => Real.log (a c)) (cfhmmBeta C beta) v := by
  have hc : (2 : ℝ) ≤ C := by exact_mod_cast hC
  have hd := cfhmmDiag_pos hC h0
  have hB : ∀ i j, 0 < cfhmmBeta C beta i j := by
    intro i j
    rw [cfhmmBeta_eq]; split_ifs
    · exact hd
    · exact one_div_pos.2 (by linarith)
  unfold cfhmmLogpX cfhmmSampleProb cfhmmOneHot
  rw [Real.exp_add, Real.exp_sum, Real.exp_sum]
  have e0 : ∀ k, Real.exp (cfhmmLogPx (oneHot C ((v 0 k : ℕ) : ℤ)) fun c => Real.log (a c)) =
      softmax (fun c => Real.log (a c)) (v 0 k) := by
    intro k
    unfold cfhmmLogPx
    have h1 : ∑ c, oneHot C ((v 0 k : ℕ) : ℤ) c = 1 := by
      have := oneHot_sum (v 0 k) fun _ => 1
      simpa using this
    have h2 : lgamma (1 + 1) = 0 := by
      unfold lgamma
      rw [gamma_one_add_one, Real.log_one]
    simp only [lgamma_one_add_oneHot, h1, h2, oneHot_sum, Finset.sum_const_zero]
    rw [softmax_log ha, ha1, div_one, sub_zero, zero_add, Real.exp_log (ha _)]
  have e1 : ∀ (t : Fin n) (k : Fin K),
      Real.exp (∑ i, ∑ j, oneHot C ((v t.castSucc k : ℕ) : ℤ) i * oneHot C ((v t.succ k : ℕ) : ℤ) j *
        Real.log (cfhmmBeta C beta i j)) = (1 + cfhmmDiag C beta) *
      softmax (fun j => Real.log (∑ i, oneHot C ((v t.castSucc k : ℕ) : ℤ) i * cfhmmBeta C beta i j))
        (v t.succ k) := by
    intro t k
    have : ∑ i, ∑ j, oneHot C ((v t.castSucc k : ℕ) : ℤ) i * oneHot C ((v t.succ k : ℕ) : ℤ) j *
        Real.log (cfhmmBeta C beta i j) =
        Real.log (cfhmmBeta C beta (v t.castSucc k) (v t.succ k)) := by
      simp only [mul_assoc, ← Finset.mul_sum, oneHot_sum]
    rw [this, Real.exp_log (hB _ _)]
    simp only [oneHot_sum]
    rw [softmax_log (hB _), cfhmm_row_sum hC, mul_div_cancel₀]
    linarith
  simp only [e0]
  simp only [Real.exp_sum] at e1 ⊢
  simp only [e1, Finset.prod_mul_distrib, Finset.prod_const, Finset.card_univ, Fintype.card_fin]
  rw [← pow_mul, mul_comm K n]
  ring

/-- Concrete case: three categories, `beta = 1` (meant to be "always stay"): diagonal 1, off-diagonal
1/2, so the row sum is 2. -/
example : ∑ j, cfhmmBeta 3 1 0 j = 2 := by
  rw [cfhmm_row_sum (by norm_num)]
  norm_num [cfhmmDiag]

/-! ### C60: one log-likelihood per sample -/

/-- **C60, refutation.**  With as many chains as categories an integer batch is not one-hot encoded:
the number of returned log-likelihoods is never the batch size (for a non-empty batch and at least
two categories). -/
theorem cfhmm_batch_lost {B l C : ℕ} (hB : 0 < B) (hl : 0 < l) (hC : 2 ≤ C) :
    cfhmmRows B l C C ≠ some B := by
  unfold cfhmmRows
  rw [if_neg (by simp)]
  split_ifs with h
  · intro hh
    have hh' : B * l * C / (l * C * C) = B := by simpa using hh
    have hpos : 0 < l * C := Nat.mul_pos hl (by omega)
    have e : B * l * C / (l * C * C) = B / C := by
      rw [mul_assoc B, mul_comm B, Nat.mul_div_mul_left _ _ hpos]
    rw [e] at hh'
    exact absurd hh' (Nat.div_lt_self hB hC).ne
  · simp

/-- **C60 (partial).**  With a different number of chains there is one log-likelihood per sample;
missing: `k = C`, where the statement is false. -/
theorem cfhmm_batch_kept_partial {B l k C : ℕ} (h : k ≠ C) : cfhmmRows B l k C = some B := by
  unfold cfhmmRows; rw [if_pos h]

end Discs
