import Verif.Model.Jax
import Verif.Lemmas.Markov

/-! # Helper lemmas about the numerical primitives -/

namespace Discs

open Finset Spec

variable {Ω : Type*} [Fintype Ω]

theorem sum_exp_pos [Nonempty Ω] (l : Ω → ℝ) : 0 < ∑ ω, Real.exp (l ω) :=
  Finset.sum_pos (fun _ _ => Real.exp_pos _) Finset.univ_nonempty

theorem softmax_pos [Nonempty Ω] (l : Ω → ℝ) (ω : Ω) : 0 < softmax l ω :=
  div_pos (Real.exp_pos _) (sum_exp_pos l)

theorem isProb_softmax [Nonempty Ω] (l : Ω → ℝ) : IsProb (softmax l) := by
  refine ⟨fun ω => (softmax_pos l ω).le, ?_⟩
  unfold softmax
  rw [← Finset.sum_div, div_self (sum_exp_pos l).ne']

theorem exp_logSoftmax [Nonempty Ω] (l : Ω → ℝ) (ω : Ω) :
    Real.exp (logSoftmax l ω) = softmax l ω := by
  unfold logSoftmax softmax logsumexp
  rw [Real.exp_sub, Real.exp_log (sum_exp_pos l)]

theorem log_softmax [Nonempty Ω] (l : Ω → ℝ) (ω : Ω) :
    Real.log (softmax l ω) = logSoftmax l ω := by
  rw [← exp_logSoftmax, Real.log_exp]

/-- Softmax of log-softmax is softmax: `categorical` accepts log-probabilities as logits. -/
theorem softmax_logSoftmax [Nonempty Ω] (l : Ω → ℝ) (ω : Ω) :
    softmax (logSoftmax l) ω = softmax l ω := by
  have h : ∑ ω', Real.exp (logSoftmax l ω') = 1 := by
    simp_rw [exp_logSoftmax]; exact (isProb_softmax l).2
  unfold softmax at *
  rw [h, div_one]; exact exp_logSoftmax l ω

theorem exp_logSigmoid (x : ℝ) : Real.exp (logSigmoid x) = sigmoid x := by
  unfold logSigmoid sigmoid
  rw [Real.exp_neg, Real.exp_log (by positivity), one_div]

theorem sigmoid_pos (x : ℝ) : 0 < sigmoid x := by unfold sigmoid; positivity

theorem sigmoid_lt_one (x : ℝ) : sigmoid x < 1 := by
  unfold sigmoid
  rw [div_lt_one (by positivity)]
  linarith [Real.exp_pos (-x)]

theorem sigmoid_neg (x : ℝ) : sigmoid (-x) = 1 - sigmoid x := by
  unfold sigmoid
  rw [neg_neg, Real.exp_neg]
  have := Real.exp_pos x
  field_simp
  ring

end Discs
