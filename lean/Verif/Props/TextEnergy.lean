import Verif.Lemmas.Jax
import Verif.Model.TextInfill
import Verif.Spec.Text

/-!
# C81: the energy of the text-infilling model
-/

namespace Discs

open Finset

variable {k V : ℕ}

/-- The row the code puts at the position to be predicted is the zero row, whatever the mask token. -/
theorem tiMaskRow_eq_zero (V m : ℕ) : tiMaskRow V m = fun _ => 0 := by
  funext j; simp [tiMaskRow, atSet]

/-- **C81.** The energy is the sum over the infill positions of the log of the conditional probability
of the token there given all other tokens, the position itself showing the zero embedding row. -/
theorem tiEnergy_eq (m : ℕ) (net : (Fin k → Fin V → ℝ) → Fin k → Fin V → ℝ) (x : Fin k → Fin V) :
    tiEnergy m net (fun i => ((x i).val : ℤ))
      = ∑ i, Real.log (Spec.maskedCond (fun _ => 0) net x i (x i)) := by
  unfold tiEnergy tiForward
  refine Finset.sum_congr rfl fun i _ => ?_
  have hne : Nonempty (Fin V) := ⟨x i⟩
  rw [tiMaskRow_eq_zero]
  beta_reduce
  rw [Finset.sum_eq_single (x i)]
  · have hrow : (Function.update (fun j => oneHot V ((x j).val : ℤ)) i (fun _ => (0 : ℝ)))
        = fun j => if j = i then (fun _ => 0) else fun c => if c = x j then 1 else 0 := by
      funext j c
      by_cases h : j = i
      · subst h; simp
      · simp [h, oneHot, Fin.ext_iff]
    rw [hrow]
    have h1 : oneHot V ((x i).val : ℤ) (x i) = 1 := by simp [oneHot]
    rw [h1, mul_one, ← log_softmax]
    rfl
  · intro v _ hv
    have : oneHot V ((x i).val : ℤ) v = 0 := by
      simp only [oneHot]
      rw [if_neg]
      intro h
      exact hv (Fin.ext (by exact_mod_cast h))
    rw [this, mul_zero]
  · intro h; exact absurd (Finset.mem_univ _) h

/-- Each conditional is a probability distribution … -/
theorem maskedCond_isProb [NeZero V] (row : Fin V → ℝ) (net : (Fin k → Fin V → ℝ) → Fin k → Fin V → ℝ)
    (x : Fin k → Fin V) (i : Fin k) :
    (∀ v, 0 < Spec.maskedCond row net x i v) ∧ ∑ v, Spec.maskedCond row net x i v = 1 :=
  ⟨fun v => softmax_pos _ v, (isProb_softmax _).2⟩

/-- … that does not look at the token at the position itself. -/
theorem maskedCond_blind (row : Fin V → ℝ) (net : (Fin k → Fin V → ℝ) → Fin k → Fin V → ℝ)
    (x y : Fin k → Fin V) (i : Fin k) (h : ∀ j, j ≠ i → x j = y j) :
    Spec.maskedCond row net x i = Spec.maskedCond row net y i := by
  have : (fun j => if j = i then row else fun c => if c = x j then (1 : ℝ) else 0)
      = fun j => if j = i then row else fun c => if c = y j then (1 : ℝ) else 0 := by
    funext j
    by_cases hj : j = i
    · simp [hj]
    · simp [hj, h j hj]
  funext v
  simp only [Spec.maskedCond, this]

/-- **C81.** The weight `exp (energy)` the samplers target is the product of the conditionals, at most
one, positive. -/
theorem tiEnergy_weight (m : ℕ) (net : (Fin k → Fin V → ℝ) → Fin k → Fin V → ℝ) (x : Fin k → Fin V) :
    Real.exp (tiEnergy m net (fun i => ((x i).val : ℤ)))
        = ∏ i, Spec.maskedCond (fun _ => 0) net x i (x i)
      ∧ tiEnergy m net (fun i => ((x i).val : ℤ)) ≤ 0 := by
  rw [tiEnergy_eq]
  constructor
  · rw [Real.exp_sum]
    refine Finset.prod_congr rfl fun i _ => ?_
    have : NeZero V := ⟨(Fin.pos (x i)).ne'⟩
    exact Real.exp_log ((maskedCond_isProb _ net x i).1 _)
  · refine Finset.sum_nonpos fun i _ => ?_
    have : NeZero V := ⟨(Fin.pos (x i)).ne'⟩
    have h := maskedCond_isProb (fun _ => 0) net x i
    refine Real.log_nonpos (h.1 _).le ?_
    rw [← h.2]
    exact Finset.single_le_sum (f := fun v => Spec.maskedCond (fun _ => 0) net x i v)
      (fun v _ => (h.1 v).le) (Finset.mem_univ _)

/-- **C81.** With a single infill position the target is already normalised: it is the conditional
distribution of the model. -/
theorem tiEnergy_single [NeZero V] (m : ℕ) (net : (Fin 1 → Fin V → ℝ) → Fin 1 → Fin V → ℝ) :
    ∑ v : Fin V, Real.exp (tiEnergy m net (fun _ => (v.val : ℤ))) = 1 := by
  have h : ∀ v : Fin V, Real.exp (tiEnergy m net (fun _ => (v.val : ℤ)))
      = Spec.maskedCond (fun _ => 0) net (fun _ => 0) 0 v := by
    intro v
    rw [(tiEnergy_weight m net fun _ => v).1, Fin.prod_univ_one,
      maskedCond_blind (fun _ => 0) net (fun _ => v) (fun _ => 0) 0
        (fun j hj => absurd (Subsingleton.elim j 0) hj)]
  rw [Finset.sum_congr rfl fun v _ => h v]
  exact (maskedCond_isProb _ net _ 0).2

/-- A token id outside the vocabulary contributes nothing to the energy instead of being rejected. -/
theorem tiEnergy_out_of_range (m : ℕ) (net : (Fin k → Fin V → ℝ) → Fin k → Fin V → ℝ) (x : Fin k → ℤ)
    (h : ∀ i, x i < 0 ∨ (V : ℤ) ≤ x i) : tiEnergy m net x = 0 := by
  unfold tiEnergy tiForward
  beta_reduce
  refine Finset.sum_eq_zero fun i _ => Finset.sum_eq_zero fun v _ => ?_
  have : oneHot V (x i) v = 0 := by
    simp only [oneHot]
    rw [if_neg]
    have := v.isLt
    have := h i
    omega
  rw [this, mul_zero]

/-- The initial sample is drawn with the mask token shown at every infill position. -/
theorem tiInitLaw_eq (m : Fin V) (net : (Fin k → Fin V → ℝ) → Fin k → Fin V → ℝ) (v : Fin k → Fin V) :
    tiInitLaw m.val net v = ∏ i, Spec.maskedCond (Spec.tokenRow m) net (fun _ => m) i (v i) := by
  unfold tiInitLaw Spec.maskedCond softmax
  have : ∀ i : Fin k, tiInitRows k V m.val
      = fun j => if j = i then Spec.tokenRow m else fun c => if c = m then 1 else 0 := by
    intro i
    funext j c
    by_cases hj : j = i
    · simp [tiInitRows, Spec.tokenRow, Fin.ext_iff, hj]
    · rw [if_neg hj]
      simp [tiInitRows, Fin.ext_iff]
  refine Finset.prod_congr rfl fun i _ => ?_
  rw [← this i]

/-- It is a distribution over the tokens at the infill positions. -/
theorem tiInitLaw_sum [NeZero V] (m : ℕ) (net : (Fin k → Fin V → ℝ) → Fin k → Fin V → ℝ) :
    ∑ v, tiInitLaw m net v = 1 := by
  have := Fintype.piFinset_univ (α := Fin k) (β := fun _ => Fin V)
  unfold tiInitLaw
  rw [← this, ← Finset.prod_univ_sum]
  exact Finset.prod_eq_one fun i _ => (isProb_softmax _).2

/-! ### Refutation: the position is not masked -/

/-- A network that looks at the row of the position itself. -/
noncomputable def tiWitNet : (Fin 1 → Fin 2 → ℝ) → Fin 1 → Fin 2 → ℝ := fun r _ v => if v = 0 then r 0 1 else 0

/-- **C81, refuted part.** For a mask token of the vocabulary the row the code inserts is not the row of
the mask token (`text_infilling.py:125` writes to row 1 of an array with one row), and with a
network that tells the two apart the energy is not the sum of the log conditionals at the mask
token. -/
theorem tiEnergy_not_masked :
    (∀ V, ∀ m : Fin V, tiMaskRow V m.val ≠ Spec.tokenRow m) ∧
      tiEnergy 1 tiWitNet (fun _ => 0)
        ≠ ∑ i : Fin 1, Real.log (Spec.maskedCond (Spec.tokenRow 1) tiWitNet (fun _ => 0) i 0) := by
  constructor
  · intro V m h
    have := congrFun h m
    rw [tiMaskRow_eq_zero] at this
    simp [Spec.tokenRow] at this
  · have h := tiEnergy_eq 1 tiWitNet (fun _ => (0 : Fin 2))
    have h0 : (fun i : Fin 1 => (((0 : Fin 2)).val : ℤ)) = fun _ => 0 := by funext; rfl
    rw [h0] at h
    rw [h]
    simp only [Fin.sum_univ_one]
    intro hc
    have e1 : Spec.maskedCond (fun _ => 0) tiWitNet (fun _ => (0 : Fin 2)) 0 0 = 1 / 2 := by
      simp [Spec.maskedCond, tiWitNet]
    have e2 : Spec.maskedCond (Spec.tokenRow 1) tiWitNet (fun _ => (0 : Fin 2)) 0 0
        = Real.exp 1 / (Real.exp 1 + 1) := by
      simp [Spec.maskedCond, tiWitNet, Fin.sum_univ_two, Spec.tokenRow]
    rw [e1, e2] at hc
    have hp : 0 < Real.exp 1 / (Real.exp 1 + 1) := by positivity
    have := Real.log_injOn_pos (Set.mem_Ioi.2 (by norm_num : (0 : ℝ) < 1 / 2)) (Set.mem_Ioi.2 hp) hc
    have hgt : (1 : ℝ) < Real.exp 1 := by
      have := Real.add_one_lt_exp (x := 1) one_ne_zero; linarith
    rw [eq_div_iff (by positivity)] at this
    linarith

/-- **C81, what holds.** For networks that do not tell the zero row from the mask row at the position
to be predicted, the energy is the sum of the log conditionals of the masked language model. -/
theorem tiEnergy_masked_partial (m : Fin V) (net : (Fin k → Fin V → ℝ) → Fin k → Fin V → ℝ)
    (hnet : ∀ r i, net (Function.update r i (Spec.tokenRow m)) i = net (Function.update r i fun _ => 0) i)
    (x : Fin k → Fin V) :
    tiEnergy m.val net (fun i => ((x i).val : ℤ))
      = ∑ i, Real.log (Spec.maskedCond (Spec.tokenRow m) net x i (x i)) := by
  rw [tiEnergy_eq]
  refine Finset.sum_congr rfl fun i _ => ?_
  have h := hnet (fun j => fun c => if c = x j then 1 else 0) i
  have e : ∀ row : Fin V → ℝ, Function.update (fun j => fun c => if c = x j then (1 : ℝ) else 0) i row
      = fun j => if j = i then row else fun c => if c = x j then 1 else 0 := by
    intro row
    funext j
    by_cases hj : j = i
    · subst hj; simp
    · simp [hj]
  rw [e, e] at h
  simp only [Spec.maskedCond, h]

/-- A network meeting the hypothesis of `tiEnergy_masked_partial` that is not constant. -/
example : ∀ r i, (fun (r : Fin 2 → Fin 3 → ℝ) (i : Fin 2) (v : Fin 3) => r (i + 1) v)
      (Function.update r i (Spec.tokenRow 2)) i
    = (fun (r : Fin 2 → Fin 3 → ℝ) (i : Fin 2) (v : Fin 3) => r (i + 1) v)
      (Function.update r i fun _ => 0) i := by
  intro r i
  have : i + 1 ≠ i := by fin_cases i <;> decide
  funext v
  simp [this]

end Discs
