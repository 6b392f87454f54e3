import Verif.Model.DMALA
import Verif.Lemmas.SiteMH
import Verif.Props.LocallyBalanced

/-!
# Property C25: DMALA preserves the target at a fixed step size
-/

namespace Discs

open Finset Spec

variable {D : ℕ}

/-- The step size is not in the middle of being chosen: everything except the first step of an
adaptive run without `co_opt_prob`.  (In that first step the step size is computed from the current
sample and then also used for the reverse move.) -/
def dmalaFixed (c : DCfg) (s : DState) : Prop :=
  c.adaptive = false ∨ c.coOpt = true ∨ s.steps ≠ 0

/-- Outside the first adaptive step a chain run on its own either has a NaN step size at every sample,
or a real step size `τ x` at sample `x`, used both for leaving and for returning to `x`. -/
theorem dmala_tau (c : DCfg) (s : DState) (hfix : dmalaFixed c s) {X : Type*} (loc : X → DStats) :
    (∀ x, dmalaLogTau c s (loc x) = none) ∨
    ∃ τ : X → ℝ, (∀ x, dmalaLogTau c s (loc x) = some (τ x)) ∧
      ∀ x y, dmalaLogTauRev c (τ x) (loc y) = τ y := by
  unfold dmalaFixed at hfix
  cases ha : c.adaptive with
  | false =>
    refine Or.inr ⟨fun _ => -1 / (2 * c.stepSize), fun x => ?_, fun x y => ?_⟩
    · simp [dmalaLogTau, ha]
    · simp [dmalaLogTauRev, ha]
  | true =>
    cases hc : c.coOpt with
    | true =>
      refine Or.inr ⟨fun x => (loc x).logTau, fun x => ?_, fun x y => ?_⟩
      · simp [dmalaLogTau, ha, hc]
      · simp [dmalaLogTauRev, ha, hc]
    | false =>
      have hs : s.steps ≠ 0 := by simpa [ha, hc] using hfix
      cases ht : s.logTau with
      | none => exact Or.inl fun x => by simp [dmalaLogTau, ha, hc, hs, ht]
      | some t =>
        refine Or.inr ⟨fun _ => t, fun x => ?_, fun x y => ?_⟩
        · simp [dmalaLogTau, ha, hc, hs, ht]
        · simp [dmalaLogTauRev, hc]

theorem dmalaFlipProb_eq (t w : ℝ) : dmalaFlipProb t w = sigmoid (t + w) := by
  unfold dmalaFlipProb logaddexp clipMax sigmoid
  simp only [Real.exp_zero]
  have h : 0 < Real.exp (t + w) + 1 := by positivity
  have hle : t + w - Real.log (Real.exp (t + w) + 1) ≤ 0 := by
    have : Real.log (Real.exp (t + w)) ≤ Real.log (Real.exp (t + w) + 1) :=
      Real.log_le_log (Real.exp_pos _) (by linarith)
    rw [Real.log_exp] at this; linarith
  rw [min_eq_left hle, Real.exp_sub, Real.exp_log h, Real.exp_neg]
  have := Real.exp_pos (t + w)
  field_simp

theorem dmalaFlipProb_mem (t w : ℝ) : 0 < dmalaFlipProb t w ∧ dmalaFlipProb t w < 1 := by
  rw [dmalaFlipProb_eq]; exact ⟨sigmoid_pos _, sigmoid_lt_one _⟩

/-! ## Binary -/

theorem isProb_noFlip : IsProb fun flip : Fin D → Bool => if flip = fun _ => false then (1 : ℝ) else 0 := by
  refine ⟨fun ω => by dsimp only; split_ifs <;> norm_num, ?_⟩
  rw [Finset.sum_ite_eq', if_pos (mem_univ _)]

section binary

variable (c : DCfg) (tiny eps : ℝ) (h : ℝ → ℝ) (f : (Fin D → ℤ) → ℝ) (g : (Fin D → ℤ) → Fin D → ℝ)
  (s : DState)

theorem dmala_cases (hfix : dmalaFixed c s) :
    ((∀ x y, dmalaBinaryKernel c tiny eps h f g s x y = if x = y then 1 else 0) ∧
      ∀ x, dmalaTau1 c h g s x = none) ∨
    ∃ τ : (Fin D → ℤ) → ℝ, (∀ x, dmalaTau1 c h g s x = some (τ x)) ∧
      (∀ x, dmalaFlipLaw c h g s x = flipLaw fun j => dmalaFlipProb (τ x) (h (deltaBinary g x j))) ∧
      IsMHStep (validStates 2 D) tiny flipSites
        (flipLogAcc eps f fun x j => dmalaFlipProb (τ x) (h (deltaBinary g x j)))
        (fun x flip u => (dmalaBinaryStep c tiny eps h f g (fun _ : Fin 1 => x) (fun _ => flip)
          (fun _ => u) s).1 0) := by
  rcases dmala_tau c s hfix (fun x : Fin D → ℤ => dmalaReset fun (_ : Fin 1) j => h (deltaBinary g x j))
    with hn | ⟨τ, h1, h2⟩
  · refine Or.inl ⟨?_, hn⟩
    intro x y
    unfold dmalaBinaryKernel dmalaBinaryStep
    simp only [hn]
    have : dmalaFlipLaw c h g s x = fun flip => if flip = fun _ => false then 1 else 0 := by
      unfold dmalaFlipLaw dmalaTau1; rw [hn x]
    rw [this]
    exact lawU_const isProb_noFlip x y
  · right
    refine ⟨τ, h1, fun x => ?_, ?_⟩
    · unfold dmalaFlipLaw dmalaTau1; rw [h1 x]
    · constructor
      · intro x _ flip u hacc
        simp only [dmalaBinaryStep, h1]
        rw [mhStep_accept]
        simpa only [h2, flipLogAcc] using hacc
      · intro x _ flip u hrej
        simp only [dmalaBinaryStep, h1]
        rw [mhStep_reject]
        simpa only [h2, flipLogAcc] using hrej

/-- C25 (kernel): the binary DMALA step is a probability kernel on binary samples. -/
theorem dmalaBinary_stochastic (ht : 0 ≤ tiny) (hfix : dmalaFixed c s) :
    Stochastic (validStates 2 D) (dmalaBinaryKernel c tiny eps h f g s) := by
  rcases dmala_cases c tiny eps h f g s hfix with ⟨hid, -⟩ | ⟨τ, -, hl, hs⟩
  · exact Stochastic.congr (fun x _ y => hid x y) (stochastic_id _)
  · have := flip_stochastic ht (p := fun x j => dmalaFlipProb (τ x) (h (deltaBinary g x j)))
      (fun x j => ⟨(dmalaFlipProb_mem _ _).1.le, (dmalaFlipProb_mem _ _).2.le⟩) hs
    refine Stochastic.congr (fun x _ y => ?_) this
    unfold dmalaBinaryKernel; rw [hl]

/-- C25 (ideal arithmetic): with the acceptance offset and the guard in the logarithms taken as zero,
the binary DMALA step is exactly reversible, whatever gradient and balancing function. -/
theorem dmalaBinary_reversible (hfix : dmalaFixed c s) :
    Reversible (validStates 2 D) (fun x => Real.exp (f x)) (dmalaBinaryKernel c 0 0 h f g s) := by
  rcases dmala_cases c 0 0 h f g s hfix with ⟨hid, -⟩ | ⟨τ, -, hl, hs⟩
  · exact Reversible.congr (fun x _ y => hid x y) (reversible_id _ _)
  · have := flip_reversible (fun x j => dmalaFlipProb_mem (τ x) (h (deltaBinary g x j))) hs
    refine Reversible.congr (fun x _ y => ?_) this
    unfold dmalaBinaryKernel; rw [hl]

theorem dmalaBinary_nearlyInvariant (ht : 0 ≤ tiny) (he : 0 ≤ eps) (hfix : dmalaFixed c s) :
    NearlyInvariant (validStates 2 D) (fun x => Real.exp (f x))
      (dmalaBinaryKernel c tiny eps h f g s) (2 * tiny + 2 * D * eps) := by
  rcases dmala_cases c tiny eps h f g s hfix with ⟨hid, -⟩ | ⟨τ, -, hl, hs⟩
  · refine NearlyInvariant.congr (fun x _ y => hid x y) ?_
    exact nearlyInvariant_of_reversible (by positivity) (fun x _ => (Real.exp_pos _).le)
      (stochastic_id _) (reversible_id _ _)
  · have hm := fun x j => dmalaFlipProb_mem (τ x) (h (deltaBinary g x j))
    have := flip_nearlyInvariant he ht (fun x j => ⟨(hm x j).1.le, (hm x j).2.le⟩)
      (fun x j => ⟨by linarith [(hm x j).1], by linarith [(hm x j).2]⟩) hs
    refine NearlyInvariant.congr (fun x _ y => ?_) this
    unfold dmalaBinaryKernel; rw [hl]

end binary

theorem llEps_nonneg : 0 ≤ llEps := by unfold llEps; norm_num

/-- C25 (the code's constants): along any sequence of sampler states past the first adaptive step,
`n` steps of binary DMALA move the target by at most `n · (2e-24 + 2 D · 1e-32)` of its mass. -/
theorem dmalaBinary_nearlyInvariant_run (c : DCfg) (h : ℝ → ℝ) (f : (Fin D → ℤ) → ℝ)
    (g : (Fin D → ℤ) → Fin D → ℝ) (s : ℕ → DState) (hfix : ∀ t, dmalaFixed c (s t)) (n : ℕ) :
    NearlyInvariant (validStates 2 D) (fun x => Real.exp (f x))
      (iterate (validStates 2 D) (fun t => dmalaBinaryKernel c mhTiny llEps h f g (s t)) n)
      (n * (2 * mhTiny + 2 * D * llEps)) :=
  nearlyInvariant_iterate
    (fun t => dmalaBinary_stochastic c mhTiny llEps h f g (s t) mhTiny_nonneg (hfix t))
    (fun t => dmalaBinary_nearlyInvariant c mhTiny llEps h f g (s t) mhTiny_nonneg llEps_nonneg (hfix t)) n

/-! ## Categorical -/

section categ

variable (c : DCfg) (tiny : ℝ) (h : ℝ → ℝ) {C : ℕ} (f : (Fin D → Fin C → ℝ) → ℝ)
  (g : (Fin D → Fin C → ℝ) → Fin D → Fin C → ℝ) (s : DState)

theorem dmalaCateg_cases (hC : 2 < C) (hfix : dmalaFixed c s) :
    ((∀ x ∈ validStates C D, ∀ y, dmalaCategKernel c tiny h C f g s x y = if x = y then 1 else 0) ∧
      ∀ x : Fin D → ℤ, dmalaCategTau1 c h g s (oneHotRow C x) = none) ∨
    ∃ dist : (Fin D → ℤ) → Fin D → Fin C → ℝ,
      (∃ τ : (Fin D → ℤ) → ℝ, (∀ x, dmalaCategTau1 c h g s (oneHotRow C x) = some (τ x)) ∧
        dist = fun x j => dmalaCategDist (τ x) (fun k => h (deltaCateg g (oneHotRow C x) j k))
          (oneHotRow C x j)) ∧
      (∀ x, dmalaCategLaw c h g s (oneHotRow C x) = categLaw (dist x)) ∧
      IsMHStep (validStates C D) tiny (fun _ v => categRow v) (categLogAcc f dist)
        (fun x v u => (dmalaCategStep c tiny h C f g (fun _ : Fin 1 => x) (fun _ => v)
          (fun _ => u) s).1 0) := by
  have : Nonempty (Fin C) := ⟨⟨0, by omega⟩⟩
  rcases dmala_tau c s hfix (fun x : Fin D → Fin C → ℝ => dmalaReset (I := Fin D × Fin C)
    fun (_ : Fin 1) i => h (deltaCateg g x i.1 i.2)) with hn | ⟨τ, h1, h2⟩
  · refine Or.inl ⟨?_, fun x => hn _⟩
    intro x hx y
    unfold dmalaCategKernel dmalaCategStep
    simp only [hn, argmaxRow_oneHotRow hx]
    have : dmalaCategLaw c h g s (oneHotRow C x) = categLaw fun _ _ => 0 := by
      unfold dmalaCategLaw dmalaCategTau1; rw [hn]
    rw [this]
    exact lawU_const (isProb_pi fun j => isProb_softmax _) x y
  · right
    refine ⟨fun x j => dmalaCategDist (τ (oneHotRow C x))
      (fun k => h (deltaCateg g (oneHotRow C x) j k)) (oneHotRow C x j),
      ⟨fun x => τ (oneHotRow C x), fun x => h1 _, rfl⟩, fun x => ?_, ?_⟩
    · unfold dmalaCategLaw dmalaCategTau1; rw [h1]
    · constructor
      · intro x _ v u hacc
        simp only [dmalaCategStep, h1]
        rw [mhStep_accept]
        · exact argmaxRow_oneHotRow (categRow_valid v)
        · simpa only [h2, categLogAcc, gt_iff_lt, hC, if_true] using hacc
      · intro x hx v u hrej
        simp only [dmalaCategStep, h1]
        rw [mhStep_reject]
        · exact argmaxRow_oneHotRow hx
        · simpa only [h2, categLogAcc, gt_iff_lt, hC, if_true] using hrej

/-- C25 (kernel): the categorical DMALA step is a probability kernel on valid samples. -/
theorem dmalaCateg_stochastic (hC : 2 < C) (ht : 0 ≤ tiny) (hfix : dmalaFixed c s) :
    Stochastic (validStates C D) (dmalaCategKernel c tiny h C f g s) := by
  rcases dmalaCateg_cases c tiny h f g s hC hfix with ⟨hid, -⟩ | ⟨dist, -, hl, hs⟩
  · exact Stochastic.congr hid (stochastic_id _)
  · have := (categ_pathMH (by omega : 0 < C) f dist).stochastic_step ht hs
    refine Stochastic.congr (fun x _ y => ?_) this
    unfold dmalaCategKernel; rw [hl]

/-- C25 (ideal acceptance test): the categorical DMALA step is exactly reversible. -/
theorem dmalaCateg_reversible (hC : 2 < C) (hfix : dmalaFixed c s) :
    Reversible (validStates C D) (fun x => Real.exp (f (oneHotRow C x)))
      (dmalaCategKernel c 0 h C f g s) := by
  rcases dmalaCateg_cases c 0 h f g s hC hfix with ⟨hid, -⟩ | ⟨dist, -, hl, hs⟩
  · exact Reversible.congr hid (reversible_id _ _)
  · have := (categ_pathMH (by omega : 0 < C) f dist).reversible_step hs
    refine Reversible.congr (fun x _ y => ?_) this
    unfold dmalaCategKernel; rw [hl]

theorem dmalaCateg_nearlyInvariant (hC : 2 < C) (ht : 0 ≤ tiny) (hfix : dmalaFixed c s) :
    NearlyInvariant (validStates C D) (fun x => Real.exp (f (oneHotRow C x)))
      (dmalaCategKernel c tiny h C f g s) (2 * tiny) := by
  rcases dmalaCateg_cases c tiny h f g s hC hfix with ⟨hid, -⟩ | ⟨dist, -, hl, hs⟩
  · refine NearlyInvariant.congr hid ?_
    exact nearlyInvariant_of_reversible (by positivity) (fun x _ => (Real.exp_pos _).le)
      (stochastic_id _) (reversible_id _ _)
  · have := (categ_pathMH (by omega : 0 < C) f dist).nearlyInvariant_step ht hs
    refine NearlyInvariant.congr (fun x _ y => ?_) this
    unfold dmalaCategKernel; rw [hl]

end categ

/-- C25 (the code's acceptance test, categorical). -/
theorem dmalaCateg_nearlyInvariant_run (c : DCfg) (h : ℝ → ℝ) {C : ℕ} (hC : 2 < C)
    (f : (Fin D → Fin C → ℝ) → ℝ) (g : (Fin D → Fin C → ℝ) → Fin D → Fin C → ℝ) (s : ℕ → DState)
    (hfix : ∀ t, dmalaFixed c (s t)) (n : ℕ) :
    NearlyInvariant (validStates C D) (fun x => Real.exp (f (oneHotRow C x)))
      (iterate (validStates C D) (fun t => dmalaCategKernel c mhTiny h C f g (s t)) n)
      (n * (2 * mhTiny)) :=
  nearlyInvariant_iterate
    (fun t => dmalaCateg_stochastic c mhTiny h f g (s t) hC mhTiny_nonneg (hfix t))
    (fun t => dmalaCateg_nearlyInvariant c mhTiny h f g (s t) hC mhTiny_nonneg (hfix t)) n

/-- Instance for C25: the adaptive sampler at its fifth step, with a real step size, is covered; its
flip probability at weight `0` and `log_tau = 0` is one half. -/
example : dmalaFixed ⟨true, false, 0.3, 0.574, 100, 20, 3, "interpolate"⟩ ⟨5, 20, some 0, 0⟩ ∧
    dmalaFlipProb 0 0 = 1 / 2 := by
  refine ⟨Or.inr (Or.inr (by decide)), ?_⟩
  rw [dmalaFlipProb_eq]; unfold sigmoid; norm_num

end Discs
