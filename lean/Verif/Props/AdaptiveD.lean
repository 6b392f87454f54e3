import Verif.Lemmas.SiteRun
import Verif.Props.AdaptiveLB
import Verif.Props.DAdapt
import Verif.Props.DLMC
import Verif.Props.Factorized

/-!
# Property C88 for adaptive DMALA and DLMC

The step size after a step is computed from the acceptance ratio of the step.  On a model that looks at one
site, and whose gradient is zero at every sample, the estimate `log_z` is the same for all samples, the
proposals do not depend on the sample and the law of a run is computed exactly.
-/

namespace Discs

open Finset Spec

variable {D : ℕ}

/-! ## Two steps of the two-number process -/

/-- Two steps when the flip to the likelier value is always accepted and the other with probability
`ρ - τ`. -/
theorem siteRun_two {R : Type*} (ρ τ : ℝ) (P : R → ℝ) (next : R → ℝ → R) (r : R) :
    siteRun ρ (ρ - τ) 1 P next 2 r true + ρ * siteRun ρ (ρ - τ) 1 P next 2 r false =
      1 - ρ ^ 2 * P r * (P (next r 1) - P (next r ρ)) +
        τ * (P r - 2 * ρ * P (next r ρ) * P r + τ * P r * P (next r ρ) + (1 - P r) * P (next r 1) +
          ρ * P r * P (next r 1)) := by
  simp only [siteRun, if_true, Bool.false_eq_true, if_false]
  ring

/-- The bias outweighs the offset of the acceptance test. -/
theorem siteRun_two_ne {R : Type*} {τ : ℝ} {P : R → ℝ} {next : R → ℝ → R} {r : R}
    (hP : ∀ r, 0 ≤ P r ∧ P r ≤ 1) (hτ : 0 ≤ τ) (hτ1 : τ ≤ 1)
    (h : 16 * τ < P r * (P (next r 1) - P (next r (1 / 2)))) :
    siteRun (1 / 2) (1 / 2 - τ) 1 P next 2 r true + 1 / 2 * siteRun (1 / 2) (1 / 2 - τ) 1 P next 2 r false
      ≠ 1 := by
  rw [siteRun_two]
  obtain ⟨a0, a1⟩ := hP r
  obtain ⟨b0, b1⟩ := hP (next r 1)
  obtain ⟨c0, c1⟩ := hP (next r (1 / 2))
  set p := P r
  set q := P (next r 1)
  set q' := P (next r (1 / 2))
  have e1 : 0 ≤ p * q' := mul_nonneg a0 c0
  have e2 : p * q' ≤ 1 := mul_le_one₀ a1 c0 c1
  have e3 : 0 ≤ p * q := mul_nonneg a0 b0
  have e4 : τ * (p * q') ≤ 1 := mul_le_one₀ hτ1 e1 e2
  have hQ : p - 2 * (1 / 2) * q' * p + τ * p * q' + (1 - p) * q + 1 / 2 * p * q ≤ 4 := by
    nlinarith
  have := mul_le_mul_of_nonneg_left hQ hτ
  intro hh
  nlinarith

/-! ## The common state of the two samplers -/

/-- Two samplers whose flips are independent of the sample: probability that a site flips at a state. -/
noncomputable def dSiteProb (tau : DState → Option ℝ) (q : ℝ → ℝ) (s : DState) : ℝ :=
  match tau s with
  | none => 0
  | some t => q t

/-- State after a step with acceptance ratio `a`. -/
noncomputable def dSiteNext (c : DCfg) (tau : DState → Option ℝ) (loc : DStats) (s : DState) (a : ℝ) : DState :=
  dSelectState c s ((tau s).map fun _ => a) loc

theorem deltaBinary_zero (x : Fin D → ℤ) (j : Fin D) : deltaBinary (fun _ _ => 0) x j = 0 := by
  simp [deltaBinary]

/-- The statistics of a batch whose gradient is zero. -/
noncomputable def dmalaLoc0 (D : ℕ) (h : ℝ → ℝ) : DStats := dmalaReset fun (_ : Fin 1) (_ : Fin D) => h 0

noncomputable def dlmcLoc0 (D : ℕ) (c : DCfg) (h : ℝ → ℝ) : DStats :=
  dlmcReset c fun (_ : Fin 1) (_ : Fin D) => h 0

theorem dmalaLoc0_eq (h : ℝ → ℝ) : dmalaLoc0 D h =
    ⟨Real.log 3 - Real.log (D * Real.exp (h 0)), Real.log (D * Real.exp (h 0))⟩ := by
  simp [dmalaLoc0, dmalaReset, meanB]

theorem dlmcLoc0_eq (c : DCfg) (h : ℝ → ℝ) : dlmcLoc0 D c h =
    ⟨Real.log c.n - Real.log (D * Real.exp (h 0)), Real.log (D * Real.exp (h 0))⟩ := by
  simp [dlmcLoc0, dlmcReset, logsumexp]

/-- What a step of a sampler with independent flips, whose two proposals of a move are the same, does to one
site. -/
theorem d_siteSampler {c : DCfg} {tiny : ℝ} {f : (Fin D → ℤ) → ℝ} (i : Fin D)
    (tau : DState → Option ℝ) (q : ℝ → ℝ) (loc : DStats) {p : DState → (Fin D → ℤ) → (Fin D → Bool) → ℝ}
    {move : DState → (Fin D → ℤ) → (Fin D → Bool) → ℝ → (Fin D → ℤ) × DState}
    (pn : ∀ s x, tau s = none → p s x = fun flip => if flip = fun _ => false then 1 else 0)
    (ps : ∀ s x t, tau s = some t → p s x = flipLaw fun _ => q t)
    (mn : ∀ s x ω u, tau s = none → move s x ω u = (x, dSelectState c s none loc))
    (ms : ∀ s x ω u t, tau s = some t → move s x ω u =
      ((mhStep tiny (fun _ : Fin 1 => u) (fun _ => f (flipSites x ω) - f x)
        (fun _ => x) (fun _ => flipSites x ω)).1 0,
        dSelectState c s (some (Real.exp (clipMax (f (flipSites x ω) - f x) 0))) loc)) :
    SiteSampler (Ω := fun _ : DState => Fin D → Bool) tiny f i p move id
      (fun s ω => if (tau s).isSome then ω i else false) (dSiteProb tau q) (dSiteNext c tau loc)
      (fun s x ω => if (tau s).isSome then flipSites x ω else x) := by
  constructor
  · intro s x _ G
    unfold dSiteProb
    simp only [id]
    cases hs : tau s with
    | none => simp [pn s x hs]
    | some t =>
      simp only [ps s x t hs, Option.isSome_some, if_true]
      exact flipLaw_marginal _ i G
  · intro s x hx ω
    split_ifs
    · exact flipSites_valid hx ω
    · exact hx
  · intro s x _ ω
    by_cases hs : (tau s).isSome = true
    · simp only [hs, if_true]; unfold flipSites; split_ifs <;> simp
    · simp [hs]
  · intro s x hx ω u hacc
    cases hs : tau s with
    | none => simp [mn s x ω u hs]
    | some t =>
      rw [hs] at hacc
      simp only [Option.isSome_some, if_true] at hacc ⊢
      rw [ms s x ω u t hs, mhStep_accept hacc]
  · intro s x hx ω u hrej
    cases hs : tau s with
    | none => simp [mn s x ω u hs]
    | some t =>
      rw [hs] at hrej
      simp only [Option.isSome_some, if_true] at hrej
      rw [ms s x ω u t hs, mhStep_reject hrej]
  · intro s x _ ω u
    unfold dSiteNext
    simp only [id]
    cases hs : tau s with
    | none => simp [mn s x ω u hs]
    | some t => simp [ms s x ω u t hs]

/-! ## DMALA -/

/-- One step of binary DMALA: next sample and next state. -/
noncomputable def dmalaMove (c : DCfg) (tiny eps : ℝ) (h : ℝ → ℝ) (f : (Fin D → ℤ) → ℝ)
    (g : (Fin D → ℤ) → Fin D → ℝ) (s : DState) (x : Fin D → ℤ) (flip : Fin D → Bool) (u : ℝ) :
    (Fin D → ℤ) × DState :=
  let r := dmalaBinaryStep c tiny eps h f g (fun _ : Fin 1 => x) (fun _ => flip) (fun _ => u) s
  (r.1 0, r.2.1)

theorem dAcc_one (l : ℝ) : dAcc (fun _ : Fin 1 => l) = Real.exp (clipMax l 0) := by
  simp [dAcc, meanB]

theorem dmalaReset_zero (h : ℝ → ℝ) (x : Fin D → ℤ) :
    (dmalaReset fun (_ : Fin 1) j => h (deltaBinary (fun _ _ => 0) x j)) = dmalaLoc0 D h := by
  simp only [deltaBinary_zero]; rfl

theorem dlmcReset_zero (c : DCfg) (h : ℝ → ℝ) (x : Fin D → ℤ) :
    (dlmcReset c fun (_ : Fin 1) j => h (deltaBinary (fun _ _ => 0) x j)) = dlmcLoc0 D c h := by
  simp only [deltaBinary_zero]; rfl

/-- What a step of adaptive DMALA does to one site. -/
theorem dmala_siteSampler {c : DCfg} (hc : c.adapts) (tiny eps : ℝ) (h : ℝ → ℝ) (f : (Fin D → ℤ) → ℝ)
    (i : Fin D) :
    SiteSampler (Ω := fun _ : DState => Fin D → Bool) tiny f i (dmalaFlipLaw c h fun _ _ => 0)
      (dmalaMove c tiny eps h f fun _ _ => 0) id
      (fun s ω => if (dmalaLogTau c s (dmalaLoc0 D h)).isSome then ω i else false)
      (dSiteProb (fun s => dmalaLogTau c s (dmalaLoc0 D h)) fun t => dmalaFlipProb t (h 0))
      (dSiteNext c (fun s => dmalaLogTau c s (dmalaLoc0 D h)) (dmalaLoc0 D h))
      (fun s x ω => if (dmalaLogTau c s (dmalaLoc0 D h)).isSome then flipSites x ω else x) := by
  have hr : (c.adaptive && c.coOpt) = false := by simp [hc.2]
  refine d_siteSampler i _ _ _ ?_ ?_ ?_ ?_
  · intro s x hs
    unfold dmalaFlipLaw dmalaTau1
    rw [dmalaReset_zero, hs]
  · intro s x t hs
    unfold dmalaFlipLaw dmalaTau1
    rw [dmalaReset_zero, hs]
    simp only [deltaBinary_zero]
  · intro s x ω u hs
    unfold dmalaMove dmalaBinaryStep
    simp only [dmalaReset_zero, hs]
  · intro s x ω u t hs
    unfold dmalaMove dmalaBinaryStep
    simp only [dmalaReset_zero, hs]
    simp only [dmalaLogTauRev, hr, Bool.false_eq_true, if_false, deltaBinary_zero, dAcc_one]
    have e : ∀ a b z : ℝ, a + z - b - z = a - b := fun a b z => by ring
    simp only [e]

/-- **C88 (adaptive DMALA, exact law).** On `siteModel` the run is the two-number process; the step size
takes the place of the radius. -/
theorem dmalaAdaptive_site {c : DCfg} (hc : c.adapts) {tiny : ℝ} (ht : 0 ≤ tiny) (eps : ℝ) (h : ℝ → ℝ)
    {ρ : ℝ} (h0 : 0 < ρ) (h1 : ρ ≤ 1) (i : Fin D) (n : ℕ) (s : DState) {x : Fin D → ℤ}
    (hx : x ∈ validStates 2 D) :
    adaptiveExpect (Ω := fun _ : DState => Fin D → Bool) (dmalaFlipLaw c h fun _ _ => 0)
        (dmalaMove c tiny eps h (siteModel ρ i) fun _ _ => 0) (fun x => if x i = 1 then 1 else 0) n s x =
      siteRun ρ (acceptProb tiny (Real.log ρ)) (acceptProb tiny (-Real.log ρ))
        (dSiteProb (fun s => dmalaLogTau c s (dmalaLoc0 D h)) fun t => dmalaFlipProb t (h 0))
        (dSiteNext c (fun s => dmalaLogTau c s (dmalaLoc0 D h)) (dmalaLoc0 D h)) n s (decide (x i = 1)) := by
  exact adaptiveExpect_site ht h0 h1 (dmala_siteSampler hc tiny eps h (siteModel ρ i) i) n s x hx

/-! ## DLMC -/

/-- One step of binary DLMC: next sample and next state (for a known solver, see `dlmcBinaryStep_error`). -/
noncomputable def dlmcMove (c : DCfg) (tiny eps : ℝ) (h : ℝ → ℝ) (f : (Fin D → ℤ) → ℝ)
    (g : (Fin D → ℤ) → Fin D → ℝ) (s : DState) (x : Fin D → ℤ) (flip : Fin D → Bool) (u : ℝ) :
    (Fin D → ℤ) × DState :=
  match dlmcBinaryStep c tiny eps h f g (fun _ : Fin 1 => x) (fun _ => flip) (fun _ => u) s with
  | .ok r => (r.1 0, r.2.1)
  | .error _ => (x, s)

/-- What a step of adaptive DLMC does to one site. -/
theorem dlmc_siteSampler {c : DCfg} (hc : c.adapts) (hsol : c.solver ∈ knownSolvers) (tiny eps : ℝ)
    (h : ℝ → ℝ) (f : (Fin D → ℤ) → ℝ) (i : Fin D) :
    SiteSampler (Ω := fun _ : DState => Fin D → Bool) tiny f i (dlmcFlipLaw c h fun _ _ => 0)
      (dlmcMove c tiny eps h f fun _ _ => 0) id
      (fun s ω => if (dlmcLogTau c s (dlmcLoc0 D c h)).isSome then ω i else false)
      (dSiteProb (fun s => dlmcLogTau c s (dlmcLoc0 D c h))
        fun t => ((dlmcFlipProb c.solver t (h 0) 0).toOption).getD 0)
      (dSiteNext c (fun s => dlmcLogTau c s (dlmcLoc0 D c h)) (dlmcLoc0 D c h))
      (fun s x ω => if (dlmcLogTau c s (dlmcLoc0 D c h)).isSome then flipSites x ω else x) := by
  refine d_siteSampler i _ _ _ ?_ ?_ ?_ ?_
  · intro s x hs
    unfold dlmcFlipLaw dlmcTau1
    rw [dlmcReset_zero, hs]
  · intro s x t hs
    unfold dlmcFlipLaw dlmcTau1
    rw [dlmcReset_zero, hs]
    simp only [deltaBinary_zero]
  · intro s x ω u hs
    unfold dlmcMove dlmcBinaryStep
    simp only [dlmcReset_zero, hs, not_unknown c hsol, if_false, dlmcPreState, hc.1, if_true]
  · intro s x ω u t hs
    unfold dlmcMove dlmcBinaryStep
    simp only [dlmcReset_zero, hs]
    simp only [not_unknown c hsol, dlmcPreState, hc.1, if_true, dmalaLogTauRev,
      hc.2, Bool.and_false, Bool.false_eq_true, if_false, deltaBinary_zero, dAcc_one]
    have e : ∀ a b z : ℝ, a + z - b - z = a - b := fun a b z => by ring
    simp only [e]

/-- **C88 (adaptive DLMC, exact law).** -/
theorem dlmcAdaptive_site {c : DCfg} (hc : c.adapts) (hsol : c.solver ∈ knownSolvers) {tiny : ℝ} (ht : 0 ≤ tiny)
    (eps : ℝ) (h : ℝ → ℝ) {ρ : ℝ} (h0 : 0 < ρ) (h1 : ρ ≤ 1) (i : Fin D) (n : ℕ) (s : DState)
    {x : Fin D → ℤ} (hx : x ∈ validStates 2 D) :
    adaptiveExpect (Ω := fun _ : DState => Fin D → Bool) (dlmcFlipLaw c h fun _ _ => 0)
        (dlmcMove c tiny eps h (siteModel ρ i) fun _ _ => 0) (fun x => if x i = 1 then 1 else 0) n s x =
      siteRun ρ (acceptProb tiny (Real.log ρ)) (acceptProb tiny (-Real.log ρ))
        (dSiteProb (fun s => dlmcLogTau c s (dlmcLoc0 D c h))
          fun t => ((dlmcFlipProb c.solver t (h 0) 0).toOption).getD 0)
        (dSiteNext c (fun s => dlmcLogTau c s (dlmcLoc0 D c h)) (dlmcLoc0 D c h)) n s (decide (x i = 1)) := by
  exact adaptiveExpect_site ht h0 h1 (dlmc_siteSampler hc hsol tiny eps h (siteModel ρ i) i) n s x hx

/-! ## Two steps from the initial state -/

/-- The first update of `log_z` takes the statistics of the batch. -/
theorem dNewLogZ_first {c : DCfg} (h : 1 < c.scheduleStep ∨ c.resetZ ≤ 0) (z l : ℝ) :
    dNewLogZ c 1 z l = l := by
  unfold dNewLogZ
  rcases h with h | h
  · simp [h]
  · have : ¬ c.resetZ > 0 := by omega
    simp only [this, if_false, if_true]
    ring

/-- Expected number of flips requested after one step with acceptance ratio `a`. -/
noncomputable def dAim (N t a : ℝ) : ℝ := max 1 (N + 3 * (a - t))

/-- Flip probabilities after one step: `N` is the estimate of the normaliser, `Q m` the flip probability when
`m` flips are requested. -/
theorem dSite_next_prob {c : DCfg} (hc : c.adapts) (hz : 1 < c.scheduleStep ∨ c.resetZ ≤ 0)
    {tau : DState → Option ℝ} {q Q : ℝ → ℝ} {loc : DStats} {N : ℝ} (hN : 0 < N) (hloc : loc.logZ = Real.log N)
    (htau : tau dInit = some loc.logTau) (htau' : ∀ s : DState, s.steps ≠ 0 → tau s = s.logTau)
    (hQ : ∀ m, 0 < m → q (Real.log m - Real.log N) = Q m) (hQ0 : ∀ m, 0 < m → 0 ≤ Q m) (a : ℝ) :
    (0 ≤ N + 3 * (a - c.target) →
      dSiteProb tau q (dSiteNext c tau loc dInit a) = Q (dAim N c.target a)) ∧
    dSiteProb tau q (dSiteNext c tau loc dInit a) ≤ Q (dAim N c.target a) := by
  have hm : 0 < dAim N c.target a := lt_of_lt_of_le one_pos (le_max_left _ _)
  have e : tau (dSiteNext c tau loc dInit a) = dNewLogTau c.target (some 0) (some a) (Real.log N) := by
    rw [htau' _ (by unfold dSiteNext; rw [dSelectState_adapts hc]; simp)]
    unfold dSiteNext
    rw [dSelectState_adapts hc, htau]
    simp only [Option.map_some, dInit, Nat.zero_add, dNewLogZ_first hz, hloc]
  have hpos : 0 ≤ N + 3 * (a - c.target) →
      dSiteProb tau q (dSiteNext c tau loc dInit a) = Q (dAim N c.target a) := by
    intro hn
    have hn' : 0 ≤ Real.exp (0 + Real.log N) + 3 * (a - c.target) := by rwa [zero_add, Real.exp_log hN]
    obtain ⟨t', h1, -, h3⟩ := dNewLogTau_some hn'
    rw [zero_add, Real.exp_log hN] at h3
    have h4 : t' = Real.log (dAim N c.target a) - Real.log N := by
      unfold dAim; rw [← h3, Real.log_exp]; ring
    unfold dSiteProb
    rw [e, h1]
    simp only [h4, hQ _ hm]
  refine ⟨hpos, ?_⟩
  by_cases hn : 0 ≤ N + 3 * (a - c.target)
  · exact (hpos hn).le
  · have : dNewLogTau c.target (some 0) (some a) (Real.log N) = none := by
      rw [dNewLogTau_none_iff]
      exact Or.inr (Or.inr ⟨0, a, rfl, rfl, by rw [zero_add, Real.exp_log hN]; exact not_le.1 hn⟩)
    unfold dSiteProb
    rw [e, this]
    exact hQ0 _ hm

/-- The target is lost within two steps when the flip probabilities after acceptance ratios 1 and 1/2 differ
by more than the offset of the acceptance test can hide. -/
theorem dAdaptive_not_kept {c : DCfg} (hc : c.adapts) (hz : 1 < c.scheduleStep ∨ c.resetZ ≤ 0)
    (htgt : c.target ≤ 1) {tau : DState → Option ℝ} {q Q : ℝ → ℝ} {loc : DStats} {N k : ℝ} (hN : 0 < N)
    (hk : 0 < k) (hloc : loc.logZ = Real.log N) (hloc' : loc.logTau = Real.log k - Real.log N)
    (htau : tau dInit = some loc.logTau) (htau' : ∀ s : DState, s.steps ≠ 0 → tau s = s.logTau)
    (hQ : ∀ m, 0 < m → q (Real.log m - Real.log N) = Q m) (hq : ∀ t, 0 ≤ q t ∧ q t ≤ 1) {tiny : ℝ}
    (ht : 0 ≤ tiny) (ht4 : tiny ≤ 1 / 4)
    (hsmall : 16 * tiny < Q k * (Q (dAim N c.target 1) - Q (dAim N c.target (1 / 2)))) (i : Fin D)
    {p : DState → (Fin D → ℤ) → (Fin D → Bool) → ℝ}
    {move : DState → (Fin D → ℤ) → (Fin D → Bool) → ℝ → (Fin D → ℤ) × DState}
    (hsite : ∀ x ∈ validStates 2 D,
      adaptiveExpect (Ω := fun _ : DState => Fin D → Bool) p move (fun x => if x i = 1 then 1 else 0) 2 dInit x =
        siteRun (1 / 2) (acceptProb tiny (Real.log (1 / 2))) (acceptProb tiny (-Real.log (1 / 2)))
          (dSiteProb tau q) (dSiteNext c tau loc) 2 dInit (decide (x i = 1))) :
    ¬ KeepsTarget (Ω := fun _ : DState => Fin D → Bool) (validStates 2 D)
      (fun x => Real.exp (siteModel (1 / 2) i x)) p move dInit := by
  intro hkeep
  have hr := siteRun_of_keeps (tiny := tiny) (by norm_num) i (rad := id) (n := 2) hsite hkeep
  obtain ⟨hb, hcc⟩ := acceptProb_half ht ht4
  rw [hb, hcc] at hr
  have hQ0 : ∀ m, 0 < m → 0 ≤ Q m := fun m hm => by rw [← hQ m hm]; exact (hq _).1
  have h1 := (dSite_next_prob hc hz hN hloc htau htau' hQ hQ0 1).1 (by nlinarith)
  have h2 := (dSite_next_prob hc hz hN hloc htau htau' hQ hQ0 (1 / 2)).2
  have h3 : dSiteProb tau q dInit = Q k := by
    unfold dSiteProb
    rw [htau, hloc']
    exact hQ k hk
  refine siteRun_two_ne (r := dInit) (fun s => ?_) ht (by linarith) ?_ hr
  · unfold dSiteProb
    cases tau s with
    | none => simp
    | some t => exact hq t
  · rw [h1, h3]
    refine hsmall.trans_le (mul_le_mul_of_nonneg_left (by linarith) (hQ0 k hk))

theorem exp_neg_exp_zero {D : ℕ} (hD : 0 < D) (a m : ℝ) (hm : 0 < m) :
    Real.exp (Real.log m - Real.log (D * Real.exp a) + a) = m / D := by
  have hDr : (0 : ℝ) < D := by exact_mod_cast hD
  rw [Real.log_mul hDr.ne' (Real.exp_pos _).ne', Real.log_exp,
    show Real.log m - (Real.log D + a) + a = Real.log m - Real.log D by ring, Real.exp_sub, Real.exp_log hm,
    Real.exp_log hDr]

/-- Flip probabilities of DMALA after acceptance ratios 1 and at most 1/2. -/
theorem dmala_gap (hD : 0 < D) {N t a : ℝ} (hN : 1 ≤ N) (hND : N ≤ D) (ht0 : 0 ≤ t) (ht1 : t < 1)
    (ha : a ≤ 1 / 2) : 3 * min (1 - t) (1 / 2) / (25 * D) ≤
      dAim N t 1 / (dAim N t 1 + D) - dAim N t a / (dAim N t a + D) := by
  have hDr : (1 : ℝ) ≤ D := by exact_mod_cast hD
  have hDp : (0 : ℝ) < D := by linarith
  set δ := min (1 - t) (1 / 2) with hδ
  have hδ1 : δ ≤ 1 - t := min_le_left _ _
  have hδ2 : δ ≤ 1 / 2 := min_le_right _ _
  have hδ0 : 0 < δ := lt_min (by linarith) (by norm_num)
  set m₁ := dAim N t 1 with hm1
  set m₂ := dAim N t a with hm2
  have e1 : m₁ = N + 3 * (1 - t) := by
    rw [hm1]; exact max_eq_right (by linarith)
  have e2 : m₂ ≤ m₁ - 3 * δ := by
    rw [hm2, e1]
    exact max_le (by linarith) (by linarith)
  have e3 : 1 ≤ m₂ := le_max_left _ _
  have e4 : m₁ ≤ 4 * D := by rw [e1]; linarith
  have p1 : 0 < m₁ + D := by linarith
  have p2 : 0 < m₂ + D := by linarith
  have gap : m₁ / (m₁ + D) - m₂ / (m₂ + D) = D * (m₁ - m₂) / ((m₁ + D) * (m₂ + D)) := by
    have : m₁ + D ≠ 0 := p1.ne'
    have : m₂ + D ≠ 0 := p2.ne'
    field_simp
    ring
  have hden : (m₁ + D) * (m₂ + D) ≤ 25 * (D : ℝ) ^ 2 := by
    calc (m₁ + D) * (m₂ + D) ≤ (5 * D) * (5 * D) :=
          mul_le_mul (by linarith) (by linarith) (by linarith) (by linarith)
      _ = 25 * (D : ℝ) ^ 2 := by ring
  rw [gap, div_le_div_iff₀ (by positivity) (mul_pos p1 p2)]
  calc 3 * δ * ((m₁ + D) * (m₂ + D)) ≤ 3 * δ * (25 * (D : ℝ) ^ 2) :=
        mul_le_mul_of_nonneg_left hden (by positivity)
    _ = D * (3 * δ) * (25 * D) := by ring
    _ ≤ D * (m₁ - m₂) * (25 * D) := by
        refine mul_le_mul_of_nonneg_right ?_ (by positivity)
        exact mul_le_mul_of_nonneg_left (by linarith) hDp.le

theorem dmala_first (hD : 0 < D) : 3 / (4 * (D : ℝ)) ≤ 3 / (3 + D) := by
  have hDr : (1 : ℝ) ≤ D := by exact_mod_cast hD
  rw [div_le_div_iff₀ (by positivity) (by positivity)]; linarith

/-- The flip probability of DMALA when `m` flips are requested. -/
theorem dmala_prob (hD : 0 < D) (h : ℝ → ℝ) (m : ℝ) (hm : 0 < m) :
    dmalaFlipProb (Real.log m - Real.log (D * Real.exp (h 0))) (h 0) = m / (m + D) := by
  have hDp : (0 : ℝ) < D := by exact_mod_cast hD
  rw [dmalaFlipProb_eq, sigmoid, Real.exp_neg, exp_neg_exp_zero hD _ _ hm]
  field_simp

/-- **C88 (refuted for adaptive DMALA).** For every number of sites, every requested acceptance rate in `[0, 1)`,
every balancing function with `1 / D ≤ exp (h 0) ≤ 1` (for all four functions of the code `exp (h 0)` is 1 or
1/2) and every offset of the acceptance test small against `1 / D²` there is a smooth model whose target adaptive
DMALA loses within two steps from its initial state. -/
theorem dmalaAdaptive_not_kept (hD : 0 < D) {c : DCfg} (hc : c.adapts)
    (hz : 1 < c.scheduleStep ∨ c.resetZ ≤ 0) (ht0 : 0 ≤ c.target) {tiny : ℝ} (ht : 0 ≤ tiny)
    (eps : ℝ) {h : ℝ → ℝ} (hh1 : h 0 ≤ 0) (hh2 : 1 ≤ D * Real.exp (h 0))
    (hsmall : 1600 * (D : ℝ) ^ 2 * tiny < 9 * min (1 - c.target) (1 / 2)) (i : Fin D) :
    ¬ KeepsTarget (Ω := fun _ : DState => Fin D → Bool) (validStates 2 D)
      (fun x => Real.exp (siteModel (1 / 2) i x)) (dmalaFlipLaw c h fun _ _ => 0)
      (dmalaMove c tiny eps h (siteModel (1 / 2) i) fun _ _ => 0) dInit := by
  have hDr : (1 : ℝ) ≤ D := by exact_mod_cast hD
  have hDp : (0 : ℝ) < D := by linarith
  set δ := min (1 - c.target) (1 / 2) with hδ
  have hδ1 : δ ≤ 1 - c.target := min_le_left _ _
  have hδ2 : δ ≤ 1 / 2 := min_le_right _ _
  have hD2 : (1 : ℝ) ≤ (D : ℝ) ^ 2 := one_le_pow₀ hDr
  have hδ0 : 0 < δ := by nlinarith [mul_nonneg (by positivity : 0 ≤ 1600 * (D : ℝ) ^ 2) ht]
  have hE : Real.exp (h 0) ≤ 1 := by rw [← Real.exp_zero]; exact Real.exp_le_exp.2 hh1
  set N := (D : ℝ) * Real.exp (h 0) with hN
  have hND : N ≤ D := by rw [hN]; nlinarith
  have ht4 : tiny ≤ 1 / 4 := by nlinarith
  refine dAdaptive_not_kept (q := fun t => dmalaFlipProb t (h 0)) (Q := fun m => m / (m + D)) (k := 3) (N := N)
    hc hz (by linarith) (by linarith) (by norm_num) (by rw [dmalaLoc0_eq]) (by rw [dmalaLoc0_eq])
    ?_ ?_ ?_ ?_ ht ht4 ?_ i
    (fun x hx => dmalaAdaptive_site hc ht eps h (by norm_num) (by norm_num) i 2 dInit hx)
  · simp [dmalaLogTau, hc.1, hc.2, dInit]
  · intro s hs; simp [dmalaLogTau, hc.1, hc.2, hs]
  · exact fun m hm => dmala_prob hD h m hm
  · intro t; exact ⟨(dmalaFlipProb_mem _ _).1.le, (dmalaFlipProb_mem _ _).2.le⟩
  · calc 16 * tiny < 3 / (4 * (D : ℝ)) * (3 * δ / (25 * D)) := by
          rw [div_mul_div_comm, lt_div_iff₀ (by positivity)]
          nlinarith
      _ ≤ _ := mul_le_mul (dmala_first hD) (dmala_gap hD hh2 hND ht0 (by linarith) le_rfl) (by positivity)
          (by positivity)

/-- With the configured rate and the code's offset, for every sample of fewer than `10 ^ 10` sites. -/
theorem dmalaAdaptive_not_kept_default (hD : 0 < D) (hD' : (D : ℝ) ≤ 10 ^ 10) {c : DCfg} (hc : c.adapts)
    (hz : 1 < c.scheduleStep) (htgt : c.target = 0.574) {h : ℝ → ℝ} (hh : h 0 = 0) (i : Fin D) :
    ¬ KeepsTarget (Ω := fun _ : DState => Fin D → Bool) (validStates 2 D)
      (fun x => Real.exp (siteModel (1 / 2) i x)) (dmalaFlipLaw c h fun _ _ => 0)
      (dmalaMove c mhTiny llEps h (siteModel (1 / 2) i) fun _ _ => 0) dInit := by
  have hDr : (1 : ℝ) ≤ D := by exact_mod_cast hD
  refine dmalaAdaptive_not_kept hD hc (Or.inl hz) (by rw [htgt]; norm_num) mhTiny_nonneg _ hh.le
    (by rw [hh, Real.exp_zero, mul_one]; exact hDr) ?_ i
  have : (D : ℝ) ^ 2 ≤ (10 ^ 10) ^ 2 := pow_le_pow_left₀ (by linarith) hD' 2
  unfold mhTiny
  rw [htgt, min_eq_left (by norm_num)]
  norm_num at this ⊢
  linarith

/-- Flip probabilities of DLMC after acceptance ratios 1 and at most 1/2. -/
theorem dlmc_gap (hD : 0 < D) {N t a κ : ℝ} (hN : 1 ≤ N) (ht1 : t < 1) (ha : a ≤ 1 / 2)
    (hκ : κ ≤ Real.exp (-(2 * dAim N t 1 / D))) :
    3 * κ * min (1 - t) (1 / 2) / D ≤
      1 / 2 * (1 - Real.exp (-(2 * dAim N t 1 / D))) - 1 / 2 * (1 - Real.exp (-(2 * dAim N t a / D))) := by
  have hDp : (0 : ℝ) < D := by exact_mod_cast hD
  set δ := min (1 - t) (1 / 2) with hδ
  have hδ1 : δ ≤ 1 - t := min_le_left _ _
  have hδ2 : δ ≤ 1 / 2 := min_le_right _ _
  have hδ0 : 0 < δ := lt_min (by linarith) (by norm_num)
  have e1 : dAim N t 1 = N + 3 * (1 - t) := max_eq_right (by linarith)
  have e2 : dAim N t a ≤ dAim N t 1 - 3 * δ := by
    rw [e1]
    exact max_le (by linarith) (by linarith)
  set m₁ := dAim N t 1 with hm1
  set m₂ := dAim N t a with hm2
  have b1 : Real.exp (-(2 * m₂ / D)) = Real.exp (-(2 * m₁ / D)) * Real.exp (2 * (m₁ - m₂) / D) := by
    rw [← Real.exp_add]; congr 1; field_simp; ring
  have b2 := Real.add_one_le_exp (2 * (m₁ - m₂) / D)
  have b3 : 6 * δ / D ≤ 2 * (m₁ - m₂) / D := div_le_div_of_nonneg_right (by linarith) hDp.le
  have b4 : Real.exp (-(2 * m₁ / D)) * (6 * δ / D) ≤
      Real.exp (-(2 * m₁ / D)) * (Real.exp (2 * (m₁ - m₂) / D) - 1) :=
    mul_le_mul_of_nonneg_left (by linarith) (Real.exp_pos _).le
  have b5 : κ * (6 * δ / D) ≤ Real.exp (-(2 * m₁ / D)) * (6 * δ / D) :=
    mul_le_mul_of_nonneg_right hκ (by positivity)
  have b6 : 3 * κ * δ / D = 1 / 2 * (κ * (6 * δ / D)) := by ring
  rw [b6, b1]
  linarith

theorem dlmc_first (hD : 0 < D) {k : ℝ} (hk : 1 ≤ k) :
    1 / (3 * (D : ℝ)) ≤ 1 / 2 * (1 - Real.exp (-(2 * k / D))) := by
  have hDr : (1 : ℝ) ≤ D := by exact_mod_cast hD
  have hDp : (0 : ℝ) < D := by linarith
  have a1 : (2 : ℝ) / D ≤ 2 * k / D := div_le_div_of_nonneg_right (by linarith) hDp.le
  have a2 : Real.exp (-(2 * k / D)) ≤ 1 / (1 + 2 / D) := by
    rw [Real.exp_neg, ← one_div]
    refine one_div_le_one_div_of_le (by positivity) ?_
    have := Real.add_one_le_exp (2 * k / D)
    linarith
  have a3 : 1 / (1 + 2 / (D : ℝ)) = D / (D + 2) := by field_simp
  have a4 : 1 / (3 * (D : ℝ)) ≤ 1 / 2 * (1 - D / (D + 2)) := by
    have : 1 / 2 * (1 - (D : ℝ) / (D + 2)) = 1 / (D + 2) := by
      have : (D : ℝ) + 2 ≠ 0 := by positivity
      field_simp
      ring
    rw [this]
    exact one_div_le_one_div_of_le (by positivity) (by linarith)
  rw [a3] at a2
  linarith

theorem dlmc_exp_ge (hD : 0 < D) {N t : ℝ} (hN : 1 ≤ N) (hND : N ≤ D) (ht0 : 0 ≤ t) (ht1 : t < 1) :
    (1 / 3000 : ℝ) ≤ Real.exp (-(2 * dAim N t 1 / D)) := by
  have hDr : (1 : ℝ) ≤ D := by exact_mod_cast hD
  have hDp : (0 : ℝ) < D := by linarith
  have e1 : dAim N t 1 = N + 3 * (1 - t) := max_eq_right (by linarith)
  have a1 : 2 * dAim N t 1 / D ≤ 8 := by rw [div_le_iff₀ hDp, e1]; linarith
  have a2 : Real.exp (-8) ≤ Real.exp (-(2 * dAim N t 1 / D)) := Real.exp_le_exp.2 (by linarith)
  have a3 : Real.exp 8 ≤ 3000 := by
    have := Real.exp_one_lt_d9
    have b : Real.exp 8 = Real.exp 1 ^ 8 := by rw [← Real.exp_nat_mul]; norm_num
    rw [b]
    calc Real.exp 1 ^ 8 ≤ 2.7182818286 ^ 8 := pow_le_pow_left₀ (Real.exp_pos _).le this.le 8
      _ ≤ 3000 := by norm_num
  refine le_trans ?_ a2
  rw [Real.exp_neg, ← one_div]
  exact one_div_le_one_div_of_le (Real.exp_pos _) a3

/-- The flip probability of DLMC (interpolating solver) when `m` flips are requested. -/
theorem dlmc_prob (hD : 0 < D) {c : DCfg} (hsol : c.solver = "interpolate") (h : ℝ → ℝ) (m : ℝ) (hm : 0 < m) :
    ((dlmcFlipProb c.solver (Real.log m - Real.log (D * Real.exp (h 0))) (h 0) 0).toOption).getD 0 =
      1 / 2 * (1 - Real.exp (-(2 * m / D))) := by
  have e : sigmoid 0 = 1 / 2 := by unfold sigmoid; norm_num
  simp only [hsol, dlmcFlipProb_interpolate, Except.toOption, Option.getD_some]
  rw [e, ← Real.exp_add, exp_neg_exp_zero hD _ _ hm]
  congr 4
  ring

/-- **C88 (refuted for adaptive DLMC, interpolating solver).** -/
theorem dlmcAdaptive_not_kept (hD : 0 < D) {c : DCfg} (hc : c.adapts) (hsol : c.solver = "interpolate")
    (hz : 1 < c.scheduleStep ∨ c.resetZ ≤ 0) (ht0 : 0 ≤ c.target) (hn : 1 ≤ c.n) {tiny : ℝ} (ht : 0 ≤ tiny)
    (eps : ℝ) {h : ℝ → ℝ} (hh1 : h 0 ≤ 0) (hh2 : 1 ≤ D * Real.exp (h 0))
    (hsmall : 48000 * (D : ℝ) ^ 2 * tiny < min (1 - c.target) (1 / 2)) (i : Fin D) :
    ¬ KeepsTarget (Ω := fun _ : DState => Fin D → Bool) (validStates 2 D)
      (fun x => Real.exp (siteModel (1 / 2) i x)) (dlmcFlipLaw c h fun _ _ => 0)
      (dlmcMove c tiny eps h (siteModel (1 / 2) i) fun _ _ => 0) dInit := by
  have hDr : (1 : ℝ) ≤ D := by exact_mod_cast hD
  have hDp : (0 : ℝ) < D := by linarith
  have hsol' : c.solver ∈ knownSolvers := by rw [hsol]; unfold knownSolvers; simp
  set δ := min (1 - c.target) (1 / 2) with hδ
  have hδ1 : δ ≤ 1 - c.target := min_le_left _ _
  have hδ2 : δ ≤ 1 / 2 := min_le_right _ _
  have hD2 : (1 : ℝ) ≤ (D : ℝ) ^ 2 := one_le_pow₀ hDr
  have hδ0 : 0 < δ := by nlinarith [mul_nonneg (by positivity : 0 ≤ 48000 * (D : ℝ) ^ 2) ht]
  have hE : Real.exp (h 0) ≤ 1 := by rw [← Real.exp_zero]; exact Real.exp_le_exp.2 hh1
  set N := (D : ℝ) * Real.exp (h 0) with hN
  have hND : N ≤ D := by rw [hN]; nlinarith
  have ht4 : tiny ≤ 1 / 4 := by nlinarith
  refine dAdaptive_not_kept (q := fun t => ((dlmcFlipProb c.solver t (h 0) 0).toOption).getD 0)
    (Q := fun m => 1 / 2 * (1 - Real.exp (-(2 * m / D)))) (k := c.n) (N := N)
    hc hz (by linarith) (by linarith) (by linarith) (by rw [dlmcLoc0_eq]) (by rw [dlmcLoc0_eq])
    ?_ ?_ ?_ ?_ ht ht4 ?_ i
    (fun x hx => dlmcAdaptive_site hc hsol' ht eps h (by norm_num) (by norm_num) i 2 dInit hx)
  · simp [dlmcLogTau, hc.1, hc.2, dInit]
  · intro s hs; simp [dlmcLogTau, hc.1, hc.2, hs]
  · exact fun m hm => dlmc_prob hD hsol h m hm
  · intro t
    have := dlmcFlipProb_mem (dlmcFlipProb_interpolate t (h 0) 0)
    simp only [hsol, dlmcFlipProb_interpolate, Except.toOption, Option.getD_some]
    exact ⟨this.1.le, this.2.1.le⟩
  · have hgap := dlmc_gap hD hh2 (by linarith) (le_refl (1 / 2 : ℝ)) (dlmc_exp_ge hD hh2 hND ht0 (by linarith))
    have e : δ / (1000 * D) = 3 * (1 / 3000) * δ / D := by field_simp; norm_num
    rw [← hδ, ← e] at hgap
    calc 16 * tiny < 1 / (3 * (D : ℝ)) * (δ / (1000 * D)) := by
          rw [div_mul_div_comm, lt_div_iff₀ (by positivity)]
          nlinarith
      _ ≤ _ := mul_le_mul (dlmc_first hD hn) hgap (by positivity) (le_trans (by positivity) (dlmc_first hD hn))

/-- With the configured rate and number of flips and the code's offset, for every sample of fewer than
`10 ^ 9` sites. -/
theorem dlmcAdaptive_not_kept_default (hD : 0 < D) (hD' : (D : ℝ) ≤ 10 ^ 9) {c : DCfg} (hc : c.adapts)
    (hsol : c.solver = "interpolate") (hz : 1 < c.scheduleStep) (htgt : c.target = 0.574) (hn : c.n = 3)
    {h : ℝ → ℝ} (hh : h 0 = 0) (i : Fin D) :
    ¬ KeepsTarget (Ω := fun _ : DState => Fin D → Bool) (validStates 2 D)
      (fun x => Real.exp (siteModel (1 / 2) i x)) (dlmcFlipLaw c h fun _ _ => 0)
      (dlmcMove c mhTiny llEps h (siteModel (1 / 2) i) fun _ _ => 0) dInit := by
  have hDr : (1 : ℝ) ≤ D := by exact_mod_cast hD
  refine dlmcAdaptive_not_kept hD hc hsol (Or.inl hz) (by rw [htgt]; norm_num) (by rw [hn]; norm_num)
    mhTiny_nonneg _ hh.le (by rw [hh, Real.exp_zero, mul_one]; exact hDr) ?_ i
  have : (D : ℝ) ^ 2 ≤ (10 ^ 9) ^ 2 := pow_le_pow_left₀ (by linarith) hD' 2
  unfold mhTiny
  rw [htgt, min_eq_left (by norm_num)]
  norm_num at this ⊢
  linarith

/-- **C88 (refuted for adaptive DLMC, Euler solver, balancing function `t / (1 + t)`).** -/
theorem dlmcEuler_not_kept (hD : 3 ≤ D) {c : DCfg} (hc : c.adapts) (hsol : c.solver = "euler_forward")
    (hz : 1 < c.scheduleStep ∨ c.resetZ ≤ 0) (ht0 : 1 / 2 < c.target) (ht1 : c.target ≤ 1) (hn : 1 ≤ c.n)
    {tiny : ℝ} (ht : 0 ≤ tiny) (eps : ℝ)
    (hsmall : 16 * (D : ℝ) ^ 2 * tiny < min (3 * (c.target - 1 / 2)) (1 / 2)) (i : Fin D) :
    ¬ KeepsTarget (Ω := fun _ : DState => Fin D → Bool) (validStates 2 D)
      (fun x => Real.exp (siteModel (1 / 2) i x)) (dlmcFlipLaw c logSigmoid fun _ _ => 0)
      (dlmcMove c tiny eps logSigmoid (siteModel (1 / 2) i) fun _ _ => 0) dInit := by
  have hDr : (3 : ℝ) ≤ D := by exact_mod_cast hD
  have hDp : (0 : ℝ) < D := by linarith
  have hsol' : c.solver ∈ knownSolvers := by rw [hsol]; unfold knownSolvers; simp
  set δ := min (3 * (c.target - 1 / 2)) (1 / 2) with hδ
  have hδ1 : δ ≤ 3 * (c.target - 1 / 2) := min_le_left _ _
  have hδ2 : δ ≤ 1 / 2 := min_le_right _ _
  have hD2 : (1 : ℝ) ≤ (D : ℝ) ^ 2 := one_le_pow₀ (by linarith)
  have hδ0 : 0 < δ := lt_min (by linarith) (by norm_num)
  have e : sigmoid 0 = 1 / 2 := by unfold sigmoid; norm_num
  have hN : (D : ℝ) * Real.exp (logSigmoid 0) = D / 2 := by rw [exp_logSigmoid, e]; ring
  have ht4 : tiny ≤ 1 / 4 := by nlinarith
  refine dAdaptive_not_kept (q := fun t => ((dlmcFlipProb c.solver t (logSigmoid 0) 0).toOption).getD 0)
    (Q := fun m => min (m / D) (1 / 2)) (k := c.n) (N := (D : ℝ) * Real.exp (logSigmoid 0))
    hc hz ht1 (by positivity) (by linarith) (by rw [dlmcLoc0_eq]) (by rw [dlmcLoc0_eq])
    ?_ ?_ ?_ ?_ ht ht4 ?_ i
    (fun x hx => dlmcAdaptive_site hc hsol' ht eps logSigmoid (by norm_num) (by norm_num) i 2 dInit hx)
  · simp [dlmcLogTau, hc.1, hc.2, dInit]
  · intro s hs; simp [dlmcLogTau, hc.1, hc.2, hs]
  · intro m hm
    simp only [hsol, dlmcFlipProb_euler, Except.toOption, Option.getD_some]
    rw [e, ← Real.exp_add, exp_neg_exp_zero (by omega) _ _ hm]
  · intro t
    have := dlmcFlipProb_mem (dlmcFlipProb_euler t (logSigmoid 0) 0)
    simp only [hsol, dlmcFlipProb_euler, Except.toOption, Option.getD_some]
    exact ⟨this.1.le, this.2.1.le⟩
  · rw [hN]
    have e1 : dAim (D / 2) c.target 1 = D / 2 + 3 * (1 - c.target) := max_eq_right (by linarith)
    have e2 : dAim (D / 2) c.target (1 / 2) ≤ D / 2 - δ := max_le (by linarith) (by linarith)
    have q1 : min (dAim (D / 2) c.target 1 / D) (1 / 2) = 1 / 2 := by
      refine min_eq_right ?_
      rw [e1, le_div_iff₀ hDp]; linarith
    have q2 : min (dAim (D / 2) c.target (1 / 2) / D) (1 / 2) ≤ 1 / 2 - δ / D := by
      refine (min_le_left _ _).trans ?_
      rw [div_le_iff₀ hDp, sub_mul, div_mul_cancel₀ _ hDp.ne']; linarith
    have hp : 1 / (D : ℝ) ≤ min (c.n / D) (1 / 2) :=
      le_min (div_le_div_of_nonneg_right hn hDp.le) (one_div_le_one_div_of_le (by norm_num) (by linarith))
    calc 16 * tiny < 1 / (D : ℝ) * (δ / D) := by
          rw [div_mul_div_comm, lt_div_iff₀ (by positivity)]
          nlinarith
      _ ≤ _ := mul_le_mul hp (by rw [q1]; linarith) (by positivity) (le_trans (by positivity) hp)

/-! ## Examples -/

/-- The hypotheses are met by the default settings of the two samplers. -/
example : ∃ c : DCfg, c.adapts ∧ c.solver = "interpolate" ∧ 1 < c.scheduleStep ∧ c.target = 0.574 ∧ c.n = 3 :=
  ⟨⟨true, false, 1, 0.574, 100, 20, 3, "interpolate"⟩, ⟨rfl, rfl⟩, rfl, by norm_num, rfl, rfl⟩

/-- Ten sites, square-root weights, the settings of the configuration file. -/
example : ¬ KeepsTarget (Ω := fun _ : DState => Fin 10 → Bool) (validStates 2 10)
    (fun x => Real.exp (siteModel (1 / 2) 0 x))
    (dmalaFlipLaw ⟨true, false, 1, 0.574, 100, 20, 3, "interpolate"⟩ (fun r => r / 2) fun _ _ => 0)
    (dmalaMove ⟨true, false, 1, 0.574, 100, 20, 3, "interpolate"⟩ mhTiny llEps (fun r => r / 2)
      (siteModel (1 / 2) 0) fun _ _ => 0) dInit :=
  dmalaAdaptive_not_kept_default (by norm_num) (by norm_num) ⟨rfl, rfl⟩ (by norm_num) rfl (by norm_num) 0

end Discs
