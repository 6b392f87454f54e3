import Verif.Model.Anneal
import Verif.Props.AnnealSchedule
import Verif.Props.Convergence
import Verif.Props.BatchKernel

/-!
# Property C109: annealed combinatorial runs

`S` are the samples a chain may hold, `E = objective - penalty` the score, `R` bounds its range.
-/

namespace Discs

open Finset Spec

variable {D : ℕ}

/-! ### One annealed step of each sampler -/

theorem annealEnergy_boltz {X : Type*} (obj pen : X → ℝ) (temp : ℕ → ℝ) (t : ℕ) :
    (fun x => Real.exp (annealEnergy obj pen temp t x)) = boltz (fun x => obj x - pen x) (temp (t + 1)) := by
  funext x
  simp [annealEnergy, combForward, boltz]

/-- Whatever the temperature, one step of the random walk draws a fresh sample from the current target with
probability `a ^ dim`. -/
theorem rw_nearFresh (adaptive : Bool) (tgt : ℝ) {tiny : ℝ} (ht : 0 ≤ tiny) (obj pen : (Fin D → ℤ) → ℝ)
    (temp : ℕ → ℝ) {C : ℕ} (hC : 2 ≤ C) (s : ℕ → RWState) {a : ℝ} (ha : 0 < a)
    (hlo : ∀ t, a * (C - 1 : ℕ) * D ≤ (s t).radius) (hhi : ∀ t, (s t).radius ≤ (1 - a * (C - 1 : ℕ)) * D)
    (t : ℕ) :
    NearFresh (validStates C D) (boltz (fun x => obj x - pen x) (temp (t + 1)))
      (rwAnneal adaptive tgt tiny obj pen temp C s t) (a ^ D) (2 * tiny) := by
  have hC0 : 0 < C := by omega
  have h0 : 0 ≤ (s t).radius := le_trans (by positivity) (hlo t)
  have h1 : (s t).radius ≤ D := (hhi t).trans (by
    have : 0 ≤ a * (C - 1 : ℕ) * (D : ℝ) := by positivity
    linarith)
  have hfloor := rw_floor hC ha (hlo t) (hhi t)
  rw [← annealEnergy_boltz]
  have := PathMH.nearFresh (K := rwAnneal adaptive tgt tiny obj pen temp C s t)
    (rw_pathMH (annealEnergy obj pen temp t) hC h0 h1)
    (q := fun _ => rwDrawLaw C D (s t).radius) (ε := 0) (a := a ^ D)
    (fun x _ => isProb_rwDrawLaw hC h0 h1) (fun x _ d _ => rwPropose_valid hC0 x d)
    (fun x _ => by simp) (by positivity) (fun x hx y hy => ?_) ht
    (rw_isMH adaptive tgt tiny _ C (s t)) (fun x _ y => rfl)
  · simpa using this
  · obtain ⟨d, hd⟩ := rw_reach hC hx hy
    exact ⟨d, hd, hfloor _, hfloor _⟩

/-- Steps that propose independent site flips. -/
theorem flip_nearFresh {eps tiny a : ℝ} (he : 0 ≤ eps) (ht : 0 ≤ tiny) (ha : 0 < a) (ha2 : a ≤ 1 / 2)
    {f : (Fin D → ℤ) → ℝ} {p : (Fin D → ℤ) → Fin D → ℝ}
    (hlo : ∀ x ∈ validStates 2 D, ∀ j, a ≤ p x j ∧ p x j ≤ 1 - a)
    (hp : ∀ x j, 0 < p x j ∧ p x j < 1)
    {stepf : (Fin D → ℤ) → (Fin D → Bool) → ℝ → (Fin D → ℤ)}
    (h : IsMHStep (validStates 2 D) tiny flipSites (flipLogAcc eps f p) stepf)
    {K : (Fin D → ℤ) → (Fin D → ℤ) → ℝ}
    (hK : ∀ x ∈ validStates 2 D, ∀ y, K x y = lawU (flipLaw (p x)) (stepf x) y) :
    NearFresh (validStates 2 D) (fun x => Real.exp (f x)) K (a ^ D) (2 * tiny + 2 * D * eps) := by
  have hp' : ∀ x j, 0 ≤ p x j ∧ p x j ≤ 1 := fun x j => ⟨(hp x j).1.le, (hp x j).2.le⟩
  have hfl : ∀ x ∈ validStates 2 D, ∀ ω, a ^ D ≤ flipLaw (fun j => guardProb eps (p x j)) ω := by
    intro x hx ω
    refine pow_le_prod ha.le fun j => ?_
    have := floor_guard he ha2 (hlo x hx j).1 (hlo x hx j).2
    split_ifs <;> linarith
  refine PathMH.nearFresh (q := fun x => flipLaw (p x))
    (flip_pathMH he f hp' fun x j =>
      ⟨by linarith [(hp x j).1], by linarith [(hp x j).2]⟩)
    (fun x _ => isProb_flipLaw (hp' x)) (fun x hx ω _ => flipSites_valid hx ω)
    (fun x _ => ?_) (by positivity) (fun x hx y hy => ?_) ht h hK
  · refine (flipLaw_close (hp' x) fun j => guardProb_mem he (hp' x j).1 (hp' x j).2).trans ?_
    calc ∑ j, 2 * |p x j - guardProb eps (p x j)| ≤ ∑ _j : Fin D, 2 * eps :=
          Finset.sum_le_sum fun j _ => mul_le_mul_of_nonneg_left
            (guardProb_close he (hp' x j).1 (hp' x j).2) (by norm_num)
      _ = 2 * D * eps := by simp; ring
  · refine ⟨fun j => decide (x j ≠ y j), funext fun j => ?_, hfl x hx _, hfl y hy _⟩
    have h1 := mem_validStates_two.1 hx j
    have h2 := mem_validStates_two.1 hy j
    unfold flipSites
    by_cases hxy : x j = y j
    · simp [hxy]
    · simp [hxy]; omega

theorem dmala_nearFresh (c : DCfg) {tiny eps : ℝ} (ht : 0 ≤ tiny) (he : 0 ≤ eps) (h : ℝ → ℝ)
    (obj pen : (Fin D → ℤ) → ℝ) (g : (Fin D → ℤ) → Fin D → ℝ) (temp : ℕ → ℝ) (s : ℕ → DState) (t : ℕ)
    (hfix : dmalaFixed c (s t)) {τ : (Fin D → ℤ) → ℝ}
    (hτ : ∀ x, dmalaTau1 c h (annealGrad g temp t) (s t) x = some (τ x)) {a : ℝ} (ha : 0 < a) (ha2 : a ≤ 1 / 2)
    (hlo : ∀ x ∈ validStates 2 D, ∀ j, a ≤ dmalaFlipProb (τ x) (h (deltaBinary (annealGrad g temp t) x j)) ∧
        dmalaFlipProb (τ x) (h (deltaBinary (annealGrad g temp t) x j)) ≤ 1 - a) :
    NearFresh (validStates 2 D) (boltz (fun x => obj x - pen x) (temp (t + 1)))
      (dmalaAnneal c tiny eps h obj pen g temp s t) (a ^ D) (2 * tiny + 2 * D * eps) := by
  rw [← annealEnergy_boltz]
  rcases dmala_cases c tiny eps h (annealEnergy obj pen temp t) (annealGrad g temp t) (s t) hfix with
    ⟨-, hn⟩ | ⟨τ', h1, hl, hs⟩
  · exact absurd (hτ 0) (by rw [hn]; simp)
  · have : τ' = τ := funext fun x => by
      have := hτ x
      rw [h1 x] at this
      exact Option.some.inj this
    subst this
    exact flip_nearFresh he ht ha ha2 hlo (fun x j => dmalaFlipProb_mem _ _) hs fun x _ y => by
      unfold dmalaAnneal dmalaBinaryKernel; rw [hl]

theorem dlmc_nearFresh (c : DCfg) (hsol : c.solver ∈ knownSolvers) {tiny eps : ℝ} (ht : 0 ≤ tiny) (he : 0 ≤ eps)
    (h : ℝ → ℝ) (obj pen : (Fin D → ℤ) → ℝ) (g : (Fin D → ℤ) → Fin D → ℝ) (temp : ℕ → ℝ) (s : ℕ → DState)
    (t : ℕ) (hfix : dlmcFixed c (s t)) {τ : (Fin D → ℤ) → ℝ}
    (hτ : ∀ x, dlmcTau1 c h (annealGrad g temp t) (s t) x = some (τ x)) {a : ℝ} (ha : 0 < a) (ha2 : a ≤ 1 / 2)
    (hlo : ∀ x ∈ validStates 2 D, ∀ j, a ≤ dlmcProb c h (annealGrad g temp t) (τ x) x j ∧
        dlmcProb c h (annealGrad g temp t) (τ x) x j ≤ 1 - a) :
    NearFresh (validStates 2 D) (boltz (fun x => obj x - pen x) (temp (t + 1)))
      (dlmcAnneal c tiny eps h obj pen g temp s t) (a ^ D) (2 * tiny + 2 * D * eps) := by
  rw [← annealEnergy_boltz]
  rcases dlmc_cases c tiny eps h (annealEnergy obj pen temp t) (annealGrad g temp t) (s t) hsol hfix with
    ⟨-, hn⟩ | ⟨τ', stepf, h1, hs, hl⟩
  · exact absurd (hτ 0) (by rw [hn]; simp)
  · have : τ' = τ := funext fun x => by
      have := hτ x
      rw [h1 x] at this
      exact Option.some.inj this
    subst this
    exact flip_nearFresh he ht ha ha2 hlo (fun x j => dlmcProb_mem c h _ hsol _ x j) hs fun x _ y => hl x y

/-! ### The law at the end of the run -/

/-- The last sample of an annealed run is an optimum up to the mass the last Boltzmann law gives to worse
samples, what is left of the start, and what the run lags behind the schedule. -/
theorem nearFresh_optimum {X : Type*} [DecidableEq X] {S : Finset X} {E : X → ℝ} {T : ℕ → ℝ}
    {K : ℕ → X → X → ℝ} {a ρ R lam g : ℝ} (ha : 0 < a) (ha1 : a ≤ 1) (hlam : 0 ≤ lam)
    (h : ∀ t, NearFresh S (boltz E (T (t + 1))) (K t) a ρ) (hR : ∀ x ∈ S, ∀ y ∈ S, E x - E y ≤ R) (n : ℕ)
    (hT : ∀ t < n, |1 / T t - 1 / T (t + 1)| ≤ lam) (hTn : 0 < T n)
    (hg : ∀ x ∈ optima S E, ∀ y ∈ S, y ∉ optima S E → E y + g ≤ E x) :
    ∀ x ∈ S, 1 - S.card * Real.exp (-(g / T n)) - ((1 - a) ^ n + (lam * R + ρ / 2) / a) ≤
      mass (iterate S K n x) (optima S E) := by
  intro x hx
  have h1 := NearFresh.anneal ha ha1 hlam h hR n hT x hx
  have h2 := mass_optima_ge_gap ⟨x, hx⟩ hTn hg
  have h3 := mass_ge_of_l1 (optima_subset (S := S) (E := E)) (p := iterate S K n x)
    (q := target S (boltz E (T n)))
    (((stochastic_iterate (fun t => (h t).stoch) n).2.1 x hx).trans
      (sum_target (sum_boltz_pos ⟨x, hx⟩ E _)).symm)
  have e : (2 * (1 - a) ^ n + (2 * (lam * R) + ρ) / a) / 2 = (1 - a) ^ n + (lam * R + ρ / 2) / a := by
    field_simp
  linarith

/-- **C109 (random walk).** Law of the last sample: distance to the Boltzmann law at the last temperature. -/
theorem rw_anneal (adaptive : Bool) (tgt : ℝ) {tiny : ℝ} (ht : 0 ≤ tiny) (obj pen : (Fin D → ℤ) → ℝ)
    (temp : ℕ → ℝ) {C : ℕ} (hC : 2 ≤ C) (s : ℕ → RWState) {a : ℝ} (ha : 0 < a) (ha1 : a ≤ 1)
    (hlo : ∀ t, a * (C - 1 : ℕ) * D ≤ (s t).radius) (hhi : ∀ t, (s t).radius ≤ (1 - a * (C - 1 : ℕ)) * D)
    {R lam : ℝ} (hlam : 0 ≤ lam)
    (hR : ∀ x ∈ validStates C D, ∀ y ∈ validStates C D, (obj x - pen x) - (obj y - pen y) ≤ R) (L : ℕ)
    (hT : ∀ t < L, |1 / temp t - 1 / temp (t + 1)| ≤ lam) :
    ∀ x ∈ validStates C D,
      l1 (validStates C D) (iterate (validStates C D) (rwAnneal adaptive tgt tiny obj pen temp C s) L x)
        (target (validStates C D) (boltz (fun x => obj x - pen x) (temp L))) ≤
      2 * (1 - a ^ D) ^ L + (2 * (lam * R) + 2 * tiny) / a ^ D :=
  NearFresh.anneal (by positivity) (pow_le_one₀ ha.le ha1) hlam
    (fun t => rw_nearFresh adaptive tgt ht obj pen temp hC s ha hlo hhi t) hR L hT

/-- **C109 (random walk).** Probability that the last sample is an optimum. -/
theorem rw_anneal_optimum (adaptive : Bool) (tgt : ℝ) {tiny : ℝ} (ht : 0 ≤ tiny) (obj pen : (Fin D → ℤ) → ℝ)
    (temp : ℕ → ℝ) {C : ℕ} (hC : 2 ≤ C) (s : ℕ → RWState) {a : ℝ} (ha : 0 < a) (ha1 : a ≤ 1)
    (hlo : ∀ t, a * (C - 1 : ℕ) * D ≤ (s t).radius) (hhi : ∀ t, (s t).radius ≤ (1 - a * (C - 1 : ℕ)) * D)
    {R lam g : ℝ} (hlam : 0 ≤ lam)
    (hR : ∀ x ∈ validStates C D, ∀ y ∈ validStates C D, (obj x - pen x) - (obj y - pen y) ≤ R) (L : ℕ)
    (hT : ∀ t < L, |1 / temp t - 1 / temp (t + 1)| ≤ lam) (hTL : 0 < temp L)
    (hg : ∀ x ∈ optima (validStates C D) (fun x => obj x - pen x), ∀ y ∈ validStates C D,
      y ∉ optima (validStates C D) (fun x => obj x - pen x) → (obj y - pen y) + g ≤ obj x - pen x) :
    ∀ x ∈ validStates C D,
      1 - (validStates C D).card * Real.exp (-(g / temp L)) -
        ((1 - a ^ D) ^ L + (lam * R + tiny) / a ^ D) ≤
      mass (iterate (validStates C D) (rwAnneal adaptive tgt tiny obj pen temp C s) L x)
        (optima (validStates C D) (fun x => obj x - pen x)) :=
  fun x hx => by
  have := nearFresh_optimum (by positivity) (pow_le_one₀ ha.le ha1) hlam
    (fun t => rw_nearFresh adaptive tgt ht obj pen temp hC s ha hlo hhi t) hR L hT hTL hg x hx
  rwa [mul_div_cancel_left₀ tiny (by norm_num : (2 : ℝ) ≠ 0)] at this

/-- **C109 (DMALA, binary).** The same with flip probabilities in `[a, 1 - a]` along the schedule. -/
theorem dmala_anneal_optimum (c : DCfg) {tiny eps : ℝ} (ht : 0 ≤ tiny) (he : 0 ≤ eps) (h : ℝ → ℝ)
    (obj pen : (Fin D → ℤ) → ℝ) (g : (Fin D → ℤ) → Fin D → ℝ) (temp : ℕ → ℝ) (s : ℕ → DState)
    (hfix : ∀ t, dmalaFixed c (s t)) {τ : ℕ → (Fin D → ℤ) → ℝ}
    (hτ : ∀ t x, dmalaTau1 c h (annealGrad g temp t) (s t) x = some (τ t x)) {a : ℝ} (ha : 0 < a) (ha2 : a ≤ 1 / 2)
    (hlo : ∀ t, ∀ x ∈ validStates 2 D, ∀ j,
      a ≤ dmalaFlipProb (τ t x) (h (deltaBinary (annealGrad g temp t) x j)) ∧
        dmalaFlipProb (τ t x) (h (deltaBinary (annealGrad g temp t) x j)) ≤ 1 - a)
    {R lam gap : ℝ} (hlam : 0 ≤ lam)
    (hR : ∀ x ∈ validStates 2 D, ∀ y ∈ validStates 2 D, (obj x - pen x) - (obj y - pen y) ≤ R) (L : ℕ)
    (hT : ∀ t < L, |1 / temp t - 1 / temp (t + 1)| ≤ lam) (hTL : 0 < temp L)
    (hg : ∀ x ∈ optima (validStates 2 D) (fun x => obj x - pen x), ∀ y ∈ validStates 2 D,
      y ∉ optima (validStates 2 D) (fun x => obj x - pen x) → (obj y - pen y) + gap ≤ obj x - pen x) :
    ∀ x ∈ validStates 2 D,
      1 - (validStates 2 D).card * Real.exp (-(gap / temp L)) -
        ((1 - a ^ D) ^ L + (lam * R + (2 * tiny + 2 * D * eps) / 2) / a ^ D) ≤
      mass (iterate (validStates 2 D) (dmalaAnneal c tiny eps h obj pen g temp s) L x)
        (optima (validStates 2 D) (fun x => obj x - pen x)) :=
  nearFresh_optimum (by positivity) (pow_le_one₀ ha.le (by linarith)) hlam
    (fun t => dmala_nearFresh c ht he h obj pen g temp s t (hfix t) (hτ t) ha ha2 (hlo t)) hR L hT hTL hg

/-- **C109 (DLMC, binary).** -/
theorem dlmc_anneal_optimum (c : DCfg) (hsol : c.solver ∈ knownSolvers) {tiny eps : ℝ} (ht : 0 ≤ tiny)
    (he : 0 ≤ eps) (h : ℝ → ℝ)
    (obj pen : (Fin D → ℤ) → ℝ) (g : (Fin D → ℤ) → Fin D → ℝ) (temp : ℕ → ℝ) (s : ℕ → DState)
    (hfix : ∀ t, dlmcFixed c (s t)) {τ : ℕ → (Fin D → ℤ) → ℝ}
    (hτ : ∀ t x, dlmcTau1 c h (annealGrad g temp t) (s t) x = some (τ t x)) {a : ℝ} (ha : 0 < a) (ha2 : a ≤ 1 / 2)
    (hlo : ∀ t, ∀ x ∈ validStates 2 D, ∀ j, a ≤ dlmcProb c h (annealGrad g temp t) (τ t x) x j ∧
        dlmcProb c h (annealGrad g temp t) (τ t x) x j ≤ 1 - a)
    {R lam gap : ℝ} (hlam : 0 ≤ lam)
    (hR : ∀ x ∈ validStates 2 D, ∀ y ∈ validStates 2 D, (obj x - pen x) - (obj y - pen y) ≤ R) (L : ℕ)
    (hT : ∀ t < L, |1 / temp t - 1 / temp (t + 1)| ≤ lam) (hTL : 0 < temp L)
    (hg : ∀ x ∈ optima (validStates 2 D) (fun x => obj x - pen x), ∀ y ∈ validStates 2 D,
      y ∉ optima (validStates 2 D) (fun x => obj x - pen x) → (obj y - pen y) + gap ≤ obj x - pen x) :
    ∀ x ∈ validStates 2 D,
      1 - (validStates 2 D).card * Real.exp (-(gap / temp L)) -
        ((1 - a ^ D) ^ L + (lam * R + (2 * tiny + 2 * D * eps) / 2) / a ^ D) ≤
      mass (iterate (validStates 2 D) (dlmcAnneal c tiny eps h obj pen g temp s) L x)
        (optima (validStates 2 D) (fun x => obj x - pen x)) :=
  nearFresh_optimum (by positivity) (pow_le_one₀ ha.le (by linarith)) hlam
    (fun t => dlmc_nearFresh c hsol ht he h obj pen g temp s t (hfix t) (hτ t) ha ha2 (hlo t)) hR L hT hTL hg

/-! ### Long chains -/

theorem exists_range {X : Type*} (S : Finset X) (E : X → ℝ) : ∃ R, ∀ x ∈ S, ∀ y ∈ S, E x - E y ≤ R := by
  classical
  obtain ⟨R, hR⟩ := (S ×ˢ S).finite_toSet.image (fun p : X × X => E p.1 - E p.2) |>.bddAbove
  exact ⟨R, fun x hx y hy => hR ⟨(x, y), by simpa using ⟨hx, hy⟩, rfl⟩⟩

/-- What is left of the start and of the lag behind the schedule vanishes as the chain gets longer. -/
theorem anneal_long {b Λ : ℝ} (hb : 0 < b) (hb1 : b ≤ 1) {ε : ℝ} (hε : 0 < ε) :
    ∃ L₀ : ℕ, 0 < L₀ ∧ ∀ L : ℕ, L₀ ≤ L → 2 * (1 - b) ^ L + 2 * (Λ / L) / b ≤ ε := by
  have h1 : Filter.Tendsto (fun L : ℕ => 2 * (1 - b) ^ L + 2 * (Λ / L) / b) Filter.atTop
      (nhds (2 * 0 + 2 * 0 / b)) := by
    refine Filter.Tendsto.add (Filter.Tendsto.const_mul _ ?_)
      (Filter.Tendsto.div_const (Filter.Tendsto.const_mul _ ?_) _)
    · exact tendsto_pow_atTop_nhds_zero_of_lt_one (by linarith) (by linarith)
    · exact tendsto_const_div_atTop_nhds_zero_nat Λ
  rw [show (2 * 0 + 2 * 0 / b : ℝ) = 0 by simp] at h1
  obtain ⟨N, hN⟩ := Filter.eventually_atTop.1 (h1.eventually (gt_mem_nhds hε))
  exact ⟨N + 1, Nat.succ_pos _, fun L hL => (hN L (by omega)).le⟩

/-- **C109 (random walk, linear schedule).** Long runs end with the Boltzmann law at the final
temperature. -/
theorem rw_anneal_linear (adaptive : Bool) (tgt : ℝ) {tiny : ℝ} (ht : 0 ≤ tiny) (obj pen : (Fin D → ℤ) → ℝ)
    {init fin : ℝ} (hif : fin ≤ init) (hf : 0 < fin) {C : ℕ} (hC : 2 ≤ C) {a : ℝ} (ha : 0 < a) (ha1 : a ≤ 1)
    {ε : ℝ} (hε : 0 < ε) :
    ∃ L₀ : ℕ, ∀ L, L₀ ≤ L → ∀ s : ℕ → RWState, (∀ t, a * (C - 1 : ℕ) * D ≤ (s t).radius) →
      (∀ t, (s t).radius ≤ (1 - a * (C - 1 : ℕ)) * D) → ∀ x ∈ validStates C D,
      l1 (validStates C D)
        (iterate (validStates C D) (rwAnneal adaptive tgt tiny obj pen (linearSchedule init fin L) C s) L x)
        (target (validStates C D) (boltz (fun x => obj x - pen x) fin)) ≤ ε + 2 * tiny / a ^ D := by
  obtain ⟨R, hR⟩ := exists_range (validStates C D) fun x => obj x - pen x
  obtain ⟨L₀, h0, hL₀⟩ := anneal_long (b := a ^ D) (Λ := (init - fin) / fin ^ 2 * R) (by positivity)
    (pow_le_one₀ ha.le ha1) hε
  refine ⟨L₀, fun L hL s hlo hhi x hx => ?_⟩
  have hLp : 0 < L := by omega
  have hLp' : (0 : ℝ) < L := by exact_mod_cast hLp
  have h := rw_anneal adaptive tgt ht obj pen (linearSchedule init fin L) hC s ha ha1 hlo hhi
    (lam := (init - fin) / (L * fin ^ 2)) (div_nonneg (by linarith) (by positivity)) hR L
    (fun t htL => linear_drift hif hf htL) x hx
  rw [(linear_schedule init fin hif hf L L L le_rfl).2.2.2.2 hLp] at h
  have e : (init - fin) / (L * fin ^ 2) * R = (init - fin) / fin ^ 2 * R / L := by
    field_simp
  rw [e, add_div] at h
  linarith [hL₀ L hL]

/-- **C109 (random walk, exponential schedule).** Long runs end with the Boltzmann law at temperature
`max(init * decay_rate, final)`. -/
theorem rw_anneal_exp (adaptive : Bool) (tgt : ℝ) {tiny : ℝ} (ht : 0 ≤ tiny) (obj pen : (Fin D → ℤ) → ℝ)
    {init fin rate : ℝ} (hif : fin ≤ init) (hf : 0 < fin) (hr0 : 0 < rate) (hr1 : rate < 1) {C : ℕ} (hC : 2 ≤ C)
    {a : ℝ} (ha : 0 < a) (ha1 : a ≤ 1) {ε : ℝ} (hε : 0 < ε) :
    ∃ L₀ : ℕ, ∀ L, L₀ ≤ L → ∀ s : ℕ → RWState, (∀ t, a * (C - 1 : ℕ) * D ≤ (s t).radius) →
      (∀ t, (s t).radius ≤ (1 - a * (C - 1 : ℕ)) * D) → ∀ x ∈ validStates C D,
      l1 (validStates C D)
        (iterate (validStates C D) (rwAnneal adaptive tgt tiny obj pen (expSchedule init fin rate L) C s) L x)
        (target (validStates C D) (boltz (fun x => obj x - pen x) (max (init * rate) fin))) ≤
          ε + 2 * tiny / a ^ D := by
  obtain ⟨R, hR⟩ := exists_range (validStates C D) fun x => obj x - pen x
  have hm : 0 < max (init * rate) fin := lt_max_of_lt_right hf
  obtain ⟨L₀, h0, hL₀⟩ := anneal_long (b := a ^ D) (Λ := -Real.log rate / max (init * rate) fin * R)
    (by positivity) (pow_le_one₀ ha.le ha1) hε
  refine ⟨L₀, fun L hL s hlo hhi x hx => ?_⟩
  have hLp : 0 < L := by omega
  have hLp' : (0 : ℝ) < L := by exact_mod_cast hLp
  have hlog : 0 ≤ -Real.log rate := neg_nonneg.2 (Real.log_nonpos hr0.le hr1.le)
  have h := rw_anneal adaptive tgt ht obj pen (expSchedule init fin rate L) hC s ha ha1 hlo hhi
    (lam := -Real.log rate / (L * max (init * rate) fin)) (by positivity) hR L
    (fun t htL => exp_drift hif hf hr0 hr1 htL) x hx
  rw [(exp_schedule init fin rate hif hf hr0 hr1 L L L le_rfl).2.2.2.2 hLp] at h
  have e : -Real.log rate / (L * max (init * rate) fin) * R = -Real.log rate / max (init * rate) fin * R / L := by
    field_simp
  rw [e, add_div] at h
  linarith [hL₀ L hL]

/-- **C109 (refuted for `exp_decay` with `init * decay_rate` above the final temperature).** However long the
chain and however low the configured final temperature, the last sample is not an optimum with a probability
bounded below by that of the worst sample at temperature `init * decay_rate`. -/
theorem rw_anneal_exp_stuck (adaptive : Bool) (tgt : ℝ) {tiny : ℝ} (ht : 0 ≤ tiny)
    (obj pen : (Fin D → ℤ) → ℝ) {init fin rate : ℝ} (hif : fin ≤ init) (hf : 0 < fin) (hr0 : 0 < rate)
    (hr1 : rate < 1) (hend : fin ≤ init * rate) {C : ℕ} (hC : 2 ≤ C) {a : ℝ} (ha : 0 < a) (ha1 : a ≤ 1)
    {R : ℝ} (hR : ∀ x ∈ validStates C D, ∀ y ∈ validStates C D, (obj x - pen x) - (obj y - pen y) ≤ R)
    {z : Fin D → ℤ} (hz : z ∈ validStates C D)
    (hzo : z ∉ optima (validStates C D) fun x => obj x - pen x) {ε : ℝ} (hε : 0 < ε) :
    ∃ L₀ : ℕ, ∀ L, L₀ ≤ L → ∀ s : ℕ → RWState, (∀ t, a * (C - 1 : ℕ) * D ≤ (s t).radius) →
      (∀ t, (s t).radius ≤ (1 - a * (C - 1 : ℕ)) * D) → ∀ x ∈ validStates C D,
      mass (iterate (validStates C D) (rwAnneal adaptive tgt tiny obj pen (expSchedule init fin rate L) C s) L x)
        (optima (validStates C D) fun x => obj x - pen x) ≤
      1 - Real.exp (-(R / (init * rate))) / (validStates C D).card + ε + tiny / a ^ D := by
  obtain ⟨L₀, hL₀⟩ := rw_anneal_exp (D := D) adaptive tgt ht obj pen hif hf hr0 hr1 hC ha ha1
    (ε := 2 * ε) (by linarith)
  refine ⟨L₀, fun L hL s hlo hhi x hx => ?_⟩
  have h := hL₀ L hL s hlo hhi x hx
  rw [max_eq_left hend] at h
  set S := validStates C D with hS
  set E : (Fin D → ℤ) → ℝ := fun x => obj x - pen x with hE
  set T := init * rate with hT
  have hT0 : 0 < T := lt_of_lt_of_le hf hend
  have hst : Stochastic S (iterate S (rwAnneal adaptive tgt tiny obj pen (expSchedule init fin rate L) C s) L) :=
    stochastic_iterate (fun t => (rw_nearFresh adaptive tgt ht obj pen _ hC s ha hlo hhi t).stoch) L
  have hZ := sum_boltz_pos ⟨x, hx⟩ E T
  have h3 := mass_ge_of_l1 (optima_subset (S := S) (E := E)) (p := target S (boltz E T))
    (q := iterate S (rwAnneal adaptive tgt tiny obj pen (expSchedule init fin rate L) C s) L x)
    ((sum_target hZ).trans (hst.2.1 x hx).symm)
  have h4 : mass (target S (boltz E T)) (optima S E) ≤ 1 - target S (boltz E T) z := by
    have : mass (target S (boltz E T)) (optima S E) + target S (boltz E T) z ≤
        ∑ y ∈ S, target S (boltz E T) y := by
      classical
      unfold mass
      rw [add_comm, ← Finset.sum_insert hzo]
      refine Finset.sum_le_sum_of_subset_of_nonneg (Finset.insert_subset hz optima_subset) fun y hy _ =>
        target_nonneg (fun w _ => (boltz_pos E T w).le) y hy
    rw [sum_target hZ] at this
    linarith
  have h5 : Real.exp (-(R / T)) / S.card ≤ target S (boltz E T) z := by
    have hc : (0 : ℝ) < S.card := by exact_mod_cast Finset.card_pos.2 ⟨z, hz⟩
    unfold target
    rw [div_le_div_iff₀ hc hZ, Finset.mul_sum]
    calc ∑ y ∈ S, Real.exp (-(R / T)) * boltz E T y ≤ ∑ _y ∈ S, boltz E T z := by
          refine Finset.sum_le_sum fun y hy => ?_
          unfold boltz
          rw [← Real.exp_add]
          refine Real.exp_le_exp.2 ?_
          rw [← neg_div, ← add_div]
          refine div_le_div_of_nonneg_right ?_ hT0.le
          have := hR y hy z hz
          simp only [hE]
          linarith
      _ = boltz E T z * S.card := by rw [Finset.sum_const, nsmul_eq_mul, mul_comm]
  have h6 : l1 S (target S (boltz E T))
      (iterate S (rwAnneal adaptive tgt tiny obj pen (expSchedule init fin rate L) C s) L x) ≤
      2 * ε + 2 * tiny / a ^ D := by
    refine le_trans (le_of_eq ?_) h
    unfold l1
    exact Finset.sum_congr rfl fun y _ => abs_sub_comm _ _
  have h7 : 2 * tiny / a ^ D = 2 * (tiny / a ^ D) := by ring
  linarith

end Discs
