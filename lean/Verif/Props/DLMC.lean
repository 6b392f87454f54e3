import Verif.Model.DLMC
import Verif.Lemmas.Draws
import Verif.Props.DMALA
import Mathlib.Analysis.SpecialFunctions.Exp

/-!
# Properties C26 and C27: DLMC
-/

namespace Discs

open Finset Spec

variable {D : ℕ}

/-- The solver names the sampler knows. -/
def knownSolvers : List String := ["interpolate", "euler_forward"]

/-! ## C27: flip probabilities -/

/-- Closed form of the interpolating solver. -/
theorem dlmcFlipProb_interpolate (t w d : ℝ) :
    dlmcFlipProb "interpolate" t w d =
      .ok (sigmoid d * (1 - Real.exp (-(Real.exp t * Real.exp w / sigmoid d)))) := by
  unfold dlmcFlipProb
  simp only [if_true]
  have hr : -Real.exp (t + w - logSigmoid d) ≠ 0 := neg_ne_zero.2 (Real.exp_pos _).ne'
  have he : Real.exp (t + w - logSigmoid d) = Real.exp t * Real.exp w / sigmoid d := by
    rw [Real.exp_sub, Real.exp_add, exp_logSigmoid]
  rw [log1mexp_coe hr, abs_neg, abs_of_pos (Real.exp_pos _), he]
  set r := Real.exp t * Real.exp w / sigmoid d with hrdef
  have hrpos : 0 < r := div_pos (by positivity) (sigmoid_pos d)
  have h1 : 0 < 1 - Real.exp (-r) := by
    have : Real.exp (-r) < 1 := by rw [Real.exp_lt_one_iff]; linarith
    linarith
  have hle : logSigmoid d + Real.log (1 - Real.exp (-r)) ≤ logSigmoid d := by
    have : Real.log (1 - Real.exp (-r)) ≤ 0 :=
      Real.log_nonpos h1.le (by linarith [Real.exp_pos (-r)])
    linarith
  rw [← WithBot.coe_add, ← WithBot.coe_min, min_eq_left hle]
  show Except.ok (Real.exp _) = _
  rw [Real.exp_add, exp_logSigmoid, Real.exp_log h1]

/-- Closed form of the Euler solver. -/
theorem dlmcFlipProb_euler (t w d : ℝ) :
    dlmcFlipProb "euler_forward" t w d = .ok (min (Real.exp t * Real.exp w) (sigmoid d)) := by
  unfold dlmcFlipProb
  simp only [show ("euler_forward" : String) ≠ "interpolate" by decide, if_false, if_true]
  unfold clipMax
  rw [Real.exp_monotone.map_min, Real.exp_add, exp_logSigmoid]

/-- C27 (error branch): any other solver name raises; the two known ones never do. -/
theorem dlmcFlipProb_error (name : String) (t w d : ℝ) :
    (∃ e, dlmcFlipProb name t w d = .error e) ↔ name ∉ knownSolvers := by
  unfold knownSolvers
  by_cases h1 : name = "interpolate"
  · subst h1; rw [dlmcFlipProb_interpolate]; simp
  · by_cases h2 : name = "euler_forward"
    · subst h2; rw [dlmcFlipProb_euler]; simp
    · unfold dlmcFlipProb; simp [h1, h2]

/-- C27: every flip probability is strictly between 0 and 1 and at most the equilibrium probability. -/
theorem dlmcFlipProb_mem {name : String} {t w d p : ℝ} (hp : dlmcFlipProb name t w d = .ok p) :
    0 < p ∧ p < 1 ∧ p ≤ sigmoid d := by
  by_cases h1 : name = "interpolate"
  · subst h1
    rw [dlmcFlipProb_interpolate] at hp
    obtain rfl := Except.ok.inj hp
    set r := Real.exp t * Real.exp w / sigmoid d with hrdef
    have hs := sigmoid_pos d
    have hs1 := sigmoid_lt_one d
    have hrpos : 0 < r := div_pos (by positivity) hs
    have hlt : Real.exp (-r) < 1 := by rw [Real.exp_lt_one_iff]; linarith
    have h0 := Real.exp_pos (-r)
    exact ⟨mul_pos hs (by linarith), by nlinarith, by nlinarith⟩
  · by_cases h2 : name = "euler_forward"
    · subst h2
      rw [dlmcFlipProb_euler] at hp
      obtain rfl := Except.ok.inj hp
      exact ⟨lt_min (by positivity) (sigmoid_pos d), lt_of_le_of_lt (min_le_right _ _) (sigmoid_lt_one d),
        min_le_right _ _⟩
    · unfold dlmcFlipProb at hp; simp [h1, h2] at hp

/-- C27: the flip probability of the interpolating solver strictly increases with the step size. -/
theorem dlmcFlipProb_strictMono {t t' w d p p' : ℝ} (htt : t < t')
    (hp : dlmcFlipProb "interpolate" t w d = .ok p) (hp' : dlmcFlipProb "interpolate" t' w d = .ok p') :
    p < p' := by
  rw [dlmcFlipProb_interpolate] at hp hp'
  obtain rfl := Except.ok.inj hp
  obtain rfl := Except.ok.inj hp'
  have hs := sigmoid_pos d
  refine mul_lt_mul_of_pos_left (sub_lt_sub_left (Real.exp_lt_exp.2 (neg_lt_neg ?_)) _) hs
  exact div_lt_div_of_pos_right (mul_lt_mul_of_pos_right (Real.exp_lt_exp.2 htt) (Real.exp_pos _)) hs

/-- C27: … and tends to the equilibrium probability as the step size grows. -/
theorem dlmcFlipProb_tendsto (w d : ℝ) :
    Filter.Tendsto (fun t => ((dlmcFlipProb "interpolate" t w d).toOption).getD 0) Filter.atTop
      (nhds (sigmoid d)) := by
  simp only [dlmcFlipProb_interpolate]
  show Filter.Tendsto (fun t => sigmoid d * (1 - Real.exp (-(Real.exp t * Real.exp w / sigmoid d)))) _ _
  have hs := sigmoid_pos d
  have h1 : Filter.Tendsto (fun t : ℝ => Real.exp t * Real.exp w / sigmoid d) Filter.atTop Filter.atTop :=
    (Real.tendsto_exp_atTop.atTop_mul_const (Real.exp_pos w)).atTop_div_const hs
  have h2 := Real.tendsto_exp_neg_atTop_nhds_zero.comp h1
  have h3 := (h2.const_sub 1).const_mul (sigmoid d)
  simpa using h3

/-- Instance for C27: at `tau = w = 1`, `delta = 0` the two solvers give `(1 - e^{-2})/2` and `1/2`. -/
example : dlmcFlipProb "interpolate" 0 0 0 = .ok (1 / 2 * (1 - Real.exp (-2))) ∧
    dlmcFlipProb "euler_forward" 0 0 0 = .ok (1 / 2) := by
  rw [dlmcFlipProb_interpolate, dlmcFlipProb_euler]
  unfold sigmoid
  norm_num

/-! ## C26: reversibility -/

/-- The step size is not in the middle of being chosen.  DLMC computes it from the sample at step 0
also in non-adaptive mode. -/
def dlmcFixed (c : DCfg) (s : DState) : Prop :=
  (c.adaptive = true ∧ c.coOpt = true) ∨ s.steps ≠ 0

theorem dlmc_tau (c : DCfg) (s : DState) (hfix : dlmcFixed c s) {X : Type*} (loc : X → DStats) :
    (∀ x, dlmcLogTau c s (loc x) = none) ∨
    ∃ τ : X → ℝ, (∀ x, dlmcLogTau c s (loc x) = some (τ x)) ∧
      ∀ x y, dmalaLogTauRev c (τ x) (loc y) = τ y := by
  unfold dlmcFixed at hfix
  by_cases hcc : c.adaptive = true ∧ c.coOpt = true
  · obtain ⟨ha, hc⟩ := hcc
    refine Or.inr ⟨fun x => (loc x).logTau, fun x => ?_, fun x y => ?_⟩
    · simp [dlmcLogTau, ha, hc]
    · simp [dmalaLogTauRev, ha, hc]
  · have hs : s.steps ≠ 0 := hfix.resolve_left hcc
    have hcc' : (c.adaptive && c.coOpt) = false := by
      cases ha : c.adaptive <;> cases hc : c.coOpt <;> simp_all
    have e : ∀ x, dlmcLogTau c s (loc x) = s.logTau := by
      intro x
      unfold dlmcLogTau
      cases ha : c.adaptive <;> cases hc : c.coOpt <;> simp_all
    cases ht : s.logTau with
    | none => exact Or.inl fun x => by rw [e, ht]
    | some t =>
      exact Or.inr ⟨fun _ => t, fun x => by rw [e, ht], fun x y => by simp [dmalaLogTauRev, hcc']⟩

theorem lawU_congr {X Y Ω : Type*} [Fintype Ω] {p : Ω → ℝ} {f : Ω → ℝ → X} {f' : Ω → ℝ → Y} {y : X}
    {y' : Y} (h : ∀ ω u, f ω u = y ↔ f' ω u = y') : lawU p f y = lawU p f' y' := by
  unfold lawU
  simp only [h]

section binary

variable (c : DCfg) (tiny eps : ℝ) (h : ℝ → ℝ) (f : (Fin D → ℤ) → ℝ) (g : (Fin D → ℤ) → Fin D → ℝ)
  (s : DState)

/-- The flip probability at one site of one chain. -/
noncomputable def dlmcProb (τ : ℝ) (x : Fin D → ℤ) (j : Fin D) : ℝ :=
  ((dlmcFlipProb c.solver τ (h (deltaBinary g x j)) (deltaBinary g x j)).toOption).getD 0

theorem dlmcProb_mem (hsol : c.solver ∈ knownSolvers) (τ : ℝ) (x : Fin D → ℤ) (j : Fin D) :
    0 < dlmcProb c h g τ x j ∧ dlmcProb c h g τ x j < 1 := by
  unfold dlmcProb
  cases hp : dlmcFlipProb c.solver τ (h (deltaBinary g x j)) (deltaBinary g x j) with
  | error e => exact absurd hsol ((dlmcFlipProb_error _ _ _ _).1 ⟨e, hp⟩)
  | ok p => have := dlmcFlipProb_mem hp; exact ⟨this.1, this.2.1⟩

theorem not_unknown (hsol : c.solver ∈ knownSolvers) :
    ¬ (c.solver ≠ "interpolate" ∧ c.solver ≠ "euler_forward") := by
  unfold knownSolvers at hsol
  simp only [List.mem_cons, List.not_mem_nil, or_false] at hsol
  tauto

/-- C26 (error branch): the binary step raises exactly for unknown solvers. -/
theorem dlmcBinaryStep_error {B : ℕ} (x : Fin B → Fin D → ℤ) (flip : Fin B → Fin D → Bool)
    (u : Fin B → ℝ) :
    (∃ e, dlmcBinaryStep c tiny eps h f g x flip u s = .error e) ↔ c.solver ∉ knownSolvers := by
  unfold dlmcBinaryStep
  by_cases hsol : c.solver ∈ knownSolvers
  · simp only [not_unknown c hsol, if_false, hsol, not_true, iff_false, not_exists]
    intro e
    split <;> simp
  · have : c.solver ≠ "interpolate" ∧ c.solver ≠ "euler_forward" := by
      unfold knownSolvers at hsol; simpa using hsol
    simp only [this, ne_eq, not_false_eq_true, and_self, if_true, hsol, iff_true]
    exact ⟨_, rfl⟩

theorem dlmc_cases (hsol : c.solver ∈ knownSolvers) (hfix : dlmcFixed c s) :
    ((∀ x y, dlmcBinaryKernel c tiny eps h f g s x y = if x = y then 1 else 0) ∧
      ∀ x, dlmcTau1 c h g s x = none) ∨
    ∃ (τ : (Fin D → ℤ) → ℝ) (stepf : (Fin D → ℤ) → (Fin D → Bool) → ℝ → (Fin D → ℤ)),
      (∀ x, dlmcTau1 c h g s x = some (τ x)) ∧
      IsMHStep (validStates 2 D) tiny flipSites (flipLogAcc eps f fun x => dlmcProb c h g (τ x) x)
        stepf ∧
      ∀ x y, dlmcBinaryKernel c tiny eps h f g s x y =
        lawU (flipLaw (dlmcProb c h g (τ x) x)) (stepf x) y := by
  rcases dlmc_tau c s hfix (fun x : Fin D → ℤ => dlmcReset c fun (_ : Fin 1) j => h (deltaBinary g x j))
    with hn | ⟨τ, h1, h2⟩
  · refine Or.inl ⟨?_, hn⟩
    intro x y
    unfold dlmcBinaryKernel dlmcBinaryStep
    simp only [hn, not_unknown c hsol, if_false]
    have : dlmcFlipLaw c h g s x = fun flip => if flip = fun _ => false then 1 else 0 := by
      unfold dlmcFlipLaw dlmcTau1; rw [hn x]
    rw [this]
    refine Eq.trans (lawU_congr (f' := fun _ _ => x) (y' := y) fun ω u => ?_)
      (lawU_const isProb_noFlip x y)
    simp [Except.toOption]
  · right
    refine ⟨τ, fun x flip u => open Classical in
      if bernoulliLogp tiny u (flipLogAcc eps f (fun x => dlmcProb c h g (τ x) x) x flip) then
        flipSites x flip else x, h1, ⟨?_, ?_⟩, ?_⟩
    · intro x _ flip u hacc; exact if_pos hacc
    · intro x _ flip u hrej; exact if_neg hrej
    · intro x y
      have hl : dlmcFlipLaw c h g s x = flipLaw (dlmcProb c h g (τ x) x) := by
        unfold dlmcFlipLaw dlmcTau1; rw [h1 x]; rfl
      unfold dlmcBinaryKernel
      rw [hl]
      refine lawU_congr fun flip u => ?_
      simp only [dlmcBinaryStep, h1, not_unknown c hsol, if_false, h2, Except.toOption, Option.map_some,
        Option.some.injEq]
      rfl

/-- C26 (kernel): the binary DLMC step is a probability kernel on binary samples. -/
theorem dlmcBinary_stochastic (hsol : c.solver ∈ knownSolvers) (ht : 0 ≤ tiny) (hfix : dlmcFixed c s) :
    Stochastic (validStates 2 D) (dlmcBinaryKernel c tiny eps h f g s) := by
  rcases dlmc_cases c tiny eps h f g s hsol hfix with ⟨hid, -⟩ | ⟨τ, stepf, -, hs, hl⟩
  · exact Stochastic.congr (fun x _ y => hid x y) (stochastic_id _)
  · exact Stochastic.congr (fun x _ y => hl x y) (flip_stochastic ht
      (fun x j => ⟨(dlmcProb_mem c h g hsol _ x j).1.le, (dlmcProb_mem c h g hsol _ x j).2.le⟩) hs)

/-- C26 (ideal arithmetic): binary DLMC with either solver is exactly reversible. -/
theorem dlmcBinary_reversible (hsol : c.solver ∈ knownSolvers) (hfix : dlmcFixed c s) :
    Reversible (validStates 2 D) (fun x => Real.exp (f x)) (dlmcBinaryKernel c 0 0 h f g s) := by
  rcases dlmc_cases c 0 0 h f g s hsol hfix with ⟨hid, -⟩ | ⟨τ, stepf, -, hs, hl⟩
  · exact Reversible.congr (fun x _ y => hid x y) (reversible_id _ _)
  · exact Reversible.congr (fun x _ y => hl x y)
      (flip_reversible (fun x j => dlmcProb_mem c h g hsol _ x j) hs)

theorem dlmcBinary_nearlyInvariant (hsol : c.solver ∈ knownSolvers) (ht : 0 ≤ tiny) (he : 0 ≤ eps)
    (hfix : dlmcFixed c s) :
    NearlyInvariant (validStates 2 D) (fun x => Real.exp (f x))
      (dlmcBinaryKernel c tiny eps h f g s) (2 * tiny + 2 * D * eps) := by
  rcases dlmc_cases c tiny eps h f g s hsol hfix with ⟨hid, -⟩ | ⟨τ, stepf, -, hs, hl⟩
  · refine NearlyInvariant.congr (fun x _ y => hid x y) ?_
    exact nearlyInvariant_of_reversible (by positivity) (fun x _ => (Real.exp_pos _).le)
      (stochastic_id _) (reversible_id _ _)
  · have hm := fun x j => dlmcProb_mem c h g hsol (τ x) x j
    exact NearlyInvariant.congr (fun x _ y => hl x y)
      (flip_nearlyInvariant he ht (fun x j => ⟨(hm x j).1.le, (hm x j).2.le⟩)
        (fun x j => ⟨by linarith [(hm x j).1], by linarith [(hm x j).2]⟩) hs)

end binary

/-- C26 (the code's constants, binary): `n` steps past step 0 move the target by at most
`n · (2e-24 + 2 D · 1e-32)` of its mass. -/
theorem dlmcBinary_nearlyInvariant_run (c : DCfg) (hsol : c.solver ∈ knownSolvers) (h : ℝ → ℝ)
    (f : (Fin D → ℤ) → ℝ) (g : (Fin D → ℤ) → Fin D → ℝ) (s : ℕ → DState)
    (hfix : ∀ t, dlmcFixed c (s t)) (n : ℕ) :
    NearlyInvariant (validStates 2 D) (fun x => Real.exp (f x))
      (iterate (validStates 2 D) (fun t => dlmcBinaryKernel c mhTiny llEps h f g (s t)) n)
      (n * (2 * mhTiny + 2 * D * llEps)) :=
  nearlyInvariant_iterate
    (fun t => dlmcBinary_stochastic c mhTiny llEps h f g (s t) hsol mhTiny_nonneg (hfix t))
    (fun t => dlmcBinary_nearlyInvariant c mhTiny llEps h f g (s t) hsol mhTiny_nonneg llEps_nonneg
      (hfix t)) n

/-! ### Categorical -/

section categ

variable (c : DCfg) (tiny : ℝ) (h : ℝ → ℝ) {C : ℕ} (f : (Fin D → Fin C → ℝ) → ℝ)
  (g : (Fin D → Fin C → ℝ) → Fin D → Fin C → ℝ) (s : DState)

/-- `log1mexp` in the interpolating solver is never `-inf`. -/
theorem dlmcLog1mexp_coe (a : ℝ) :
    log1mexp ((-Real.exp a : ℝ) : WithBot ℝ) = ((Real.log (1 - Real.exp (-Real.exp a)) : ℝ) : WithBot ℝ) := by
  rw [log1mexp_coe (neg_ne_zero.2 (Real.exp_pos _).ne'), abs_neg, abs_of_pos (Real.exp_pos _)]

theorem dlmcCateg_cases (hsol : c.solver ∈ knownSolvers) (hC : 2 < C) (hfix : dlmcFixed c s) :
    ((∀ x ∈ validStates C D, ∀ y, dlmcCategKernel c tiny h C f g s x y = if x = y then 1 else 0) ∧
      ∀ x : Fin D → ℤ, dlmcCategTau1 c h g s (oneHotRow C x) = none) ∨
    ∃ (dist : (Fin D → ℤ) → Fin D → Fin C → ℝ)
      (stepf : (Fin D → ℤ) → (Fin D → Fin C) → ℝ → (Fin D → ℤ)),
      (∃ τ : (Fin D → ℤ) → ℝ, (∀ x, dlmcCategTau1 c h g s (oneHotRow C x) = some (τ x)) ∧
        dist = fun x j => ((dlmcCategDist c.solver (τ x)
          (fun k => h (deltaCateg g (oneHotRow C x) j k)) (deltaCateg g (oneHotRow C x) j)
          (oneHotRow C x j)).toOption).getD 0) ∧
      IsMHStep (validStates C D) tiny (fun _ v => categRow v) (categLogAcc f dist) stepf ∧
      ∀ x ∈ validStates C D, ∀ y, dlmcCategKernel c tiny h C f g s x y =
        lawU (categLaw (dist x)) (stepf x) y := by
  have : Nonempty (Fin C) := ⟨⟨0, by omega⟩⟩
  rcases dlmc_tau c s hfix (fun x : Fin D → Fin C → ℝ => dlmcReset c (I := Fin D × Fin C)
    fun (_ : Fin 1) i => h (deltaCateg g x i.1 i.2)) with hn | ⟨τ, h1, h2⟩
  · refine Or.inl ⟨?_, fun x => hn _⟩
    intro x hx y
    unfold dlmcCategKernel dlmcCategStep
    simp only [hn, not_unknown c hsol, if_false, argmaxRow_oneHotRow hx]
    have : dlmcCategLaw c h g s (oneHotRow C x) = categLaw fun _ _ => 0 := by
      unfold dlmcCategLaw dlmcCategTau1; rw [hn]
    rw [this]
    refine Eq.trans (lawU_congr (f' := fun _ _ => x) (y' := y) fun ω u => ?_)
      (lawU_const (isProb_pi fun j => isProb_softmax _) x y)
    simp [Except.toOption]
  · right
    let dist : (Fin D → ℤ) → Fin D → Fin C → ℝ := fun x j =>
      ((dlmcCategDist c.solver (τ (oneHotRow C x)) (fun k => h (deltaCateg g (oneHotRow C x) j k))
        (deltaCateg g (oneHotRow C x) j) (oneHotRow C x j)).toOption).getD 0
    refine ⟨dist, fun x v u => open Classical in
      if bernoulliLogp tiny u (categLogAcc f dist x v) then categRow v else x,
      ⟨fun x => τ (oneHotRow C x), fun x => h1 _, rfl⟩, ⟨?_, ?_⟩, ?_⟩
    · intro x _ v u hacc; exact if_pos hacc
    · intro x _ v u hrej; exact if_neg hrej
    · intro x hx y
      have hl : dlmcCategLaw c h g s (oneHotRow C x) = categLaw (dist x) := by
        unfold dlmcCategLaw dlmcCategTau1; rw [h1]
      unfold dlmcCategKernel
      rw [hl]
      refine lawU_congr fun v u => ?_
      simp only [dlmcCategStep, h1, not_unknown c hsol, if_false, h2, Except.toOption, Option.map_some,
        Option.some.injEq, gt_iff_lt, hC, if_true]
      rw [mhStep_one]
      by_cases hb : bernoulliLogp tiny u (categLogAcc f dist x v)
      · rw [if_pos hb]
        have hb' := hb
        unfold categLogAcc at hb'
        rw [if_pos (by exact hb'), argmaxRow_oneHotRow (categRow_valid v)]
      · rw [if_neg hb]
        have hb' := hb
        unfold categLogAcc at hb'
        rw [if_neg (by exact hb'), argmaxRow_oneHotRow hx]

/-- C26 (kernel, categorical). -/
theorem dlmcCateg_stochastic (hsol : c.solver ∈ knownSolvers) (hC : 2 < C) (ht : 0 ≤ tiny)
    (hfix : dlmcFixed c s) : Stochastic (validStates C D) (dlmcCategKernel c tiny h C f g s) := by
  rcases dlmcCateg_cases c tiny h f g s hsol hC hfix with ⟨hid, -⟩ | ⟨dist, stepf, -, hs, hl⟩
  · exact Stochastic.congr hid (stochastic_id _)
  · exact Stochastic.congr hl ((categ_pathMH (by omega : 0 < C) f dist).stochastic_step ht hs)

/-- C26 (ideal acceptance test): the categorical DLMC step is exactly reversible, although its logits
are not normalised and the "stay" logit is clipped. -/
theorem dlmcCateg_reversible (hsol : c.solver ∈ knownSolvers) (hC : 2 < C) (hfix : dlmcFixed c s) :
    Reversible (validStates C D) (fun x => Real.exp (f (oneHotRow C x)))
      (dlmcCategKernel c 0 h C f g s) := by
  rcases dlmcCateg_cases c 0 h f g s hsol hC hfix with ⟨hid, -⟩ | ⟨dist, stepf, -, hs, hl⟩
  · exact Reversible.congr hid (reversible_id _ _)
  · exact Reversible.congr hl ((categ_pathMH (by omega : 0 < C) f dist).reversible_step hs)

theorem dlmcCateg_nearlyInvariant (hsol : c.solver ∈ knownSolvers) (hC : 2 < C) (ht : 0 ≤ tiny)
    (hfix : dlmcFixed c s) :
    NearlyInvariant (validStates C D) (fun x => Real.exp (f (oneHotRow C x)))
      (dlmcCategKernel c tiny h C f g s) (2 * tiny) := by
  rcases dlmcCateg_cases c tiny h f g s hsol hC hfix with ⟨hid, -⟩ | ⟨dist, stepf, -, hs, hl⟩
  · refine NearlyInvariant.congr hid ?_
    exact nearlyInvariant_of_reversible (by positivity) (fun x _ => (Real.exp_pos _).le)
      (stochastic_id _) (reversible_id _ _)
  · exact NearlyInvariant.congr hl ((categ_pathMH (by omega : 0 < C) f dist).nearlyInvariant_step ht hs)

end categ

/-- C26 (the code's acceptance test, categorical). -/
theorem dlmcCateg_nearlyInvariant_run (c : DCfg) (hsol : c.solver ∈ knownSolvers) (h : ℝ → ℝ) {C : ℕ}
    (hC : 2 < C) (f : (Fin D → Fin C → ℝ) → ℝ) (g : (Fin D → Fin C → ℝ) → Fin D → Fin C → ℝ)
    (s : ℕ → DState) (hfix : ∀ t, dlmcFixed c (s t)) (n : ℕ) :
    NearlyInvariant (validStates C D) (fun x => Real.exp (f (oneHotRow C x)))
      (iterate (validStates C D) (fun t => dlmcCategKernel c mhTiny h C f g (s t)) n)
      (n * (2 * mhTiny)) :=
  nearlyInvariant_iterate
    (fun t => dlmcCateg_stochastic c mhTiny h f g (s t) hsol hC mhTiny_nonneg (hfix t))
    (fun t => dlmcCateg_nearlyInvariant c mhTiny h f g (s t) hsol hC mhTiny_nonneg (hfix t)) n

/-- Instance for C26: the non-adaptive sampler after its first step is covered. -/
example : dlmcFixed ⟨false, false, 0, 0, 0, -1, 3, "interpolate"⟩ ⟨1, 4, some 2, 0⟩ ∧
    "interpolate" ∈ knownSolvers := ⟨Or.inr (by decide), by decide⟩

end Discs
