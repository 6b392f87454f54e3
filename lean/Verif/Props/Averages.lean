import Verif.Lemmas.Runs
import Verif.Props.ConvergenceGWG
import Verif.Props.ConvergenceHB

/-!
# Property C87: averages along a run estimate expectations under the target

What an experiment reports are averages over the samples of a run.  `Consistent` says that the mean
squared error of every such average goes to zero like `1 / n` (up to what the offset of the acceptance
test costs), wherever the run starts.
-/

namespace Discs

open Finset Spec

variable {D : ℕ}

/-- **C87 (Gibbs).** -/
theorem gibbs_averages (f : (Fin D → ℤ) → ℝ) {C : ℕ} (hC : 0 < C) (hD : 0 < D) :
    ∃ A, Consistent (validStates C D) (fun x => Real.exp (f x))
      (fun t => gibbsKernel f C ((gibbsUpdate C D)^[t] gibbsInit)) A 0 := by
  obtain ⟨c, h0, h1, hc⟩ := gibbs_converges f hC hD
  have := consistent_of_converges (fun x _ => Real.exp_pos _)
    (K := fun t => gibbsKernel f C ((gibbsUpdate C D)^[t] gibbsInit))
    (fun t => gibbs_stochastic f hC _) hD h0 h1 le_rfl hc
  rw [mul_zero] at this
  exact ⟨_, this⟩

/-- **C87 (block Gibbs).** -/
theorem blockGibbs_averages (f : (Fin D → ℤ) → ℝ) {C b : ℕ} (hC : 0 < C) (hD : 0 < D) (hb : 0 < b) :
    ∃ A, Consistent (validStates C D) (fun x => Real.exp (f x))
      (fun t => blockGibbsKernel f C b ((blockGibbsUpdate C D b)^[t] blockInit)) A 0 := by
  obtain ⟨c, h0, h1, hc⟩ := blockGibbs_converges f hC hD hb
  have := consistent_of_converges (fun x _ => Real.exp_pos _)
    (K := fun t => blockGibbsKernel f C b ((blockGibbsUpdate C D b)^[t] blockInit))
    (fun t => blockGibbs_stochastic f hC _)
    (Nat.div_pos (Nat.le_of_dvd hD (Nat.gcd_dvd_left D b)) (Nat.gcd_pos_of_pos_left _ hD)) h0 h1 le_rfl hc
  rw [mul_zero] at this
  exact ⟨_, this⟩

/-- **C87 (RBM block Gibbs).** -/
theorem rbm_averages {V H : ℕ} (P : RBMParams V H) :
    ∃ A, Consistent (validStates 2 V) (fun x => Real.exp (rbmForward P fun i => (x i : ℝ)))
      (fun _ => rbmKernel P) A 0 := by
  obtain ⟨c, h0, h1, hc⟩ := rbm_converges P
  have := consistent_of_converges (fun x _ => Real.exp_pos _) (K := fun _ => rbmKernel P)
    (fun t => (rbm_blockgibbs_reversible P).1) one_pos h0 h1 le_rfl fun _ => hc
  rw [mul_zero] at this
  exact ⟨_, this⟩

/-- **C87 (random walk).** With radii as in `rw_converges`; the constants are explicit. -/
theorem rw_averages (adaptive : Bool) (tgt : ℝ) {tiny : ℝ} (ht : 0 ≤ tiny) (f : (Fin D → ℤ) → ℝ) {C : ℕ}
    (hC : 2 ≤ C) (s : ℕ → RWState) {a : ℝ} (ha : 0 < a) (ha1 : a ≤ 1)
    (hlo : ∀ t, a * (C - 1 : ℕ) * D ≤ (s t).radius) (hhi : ∀ t, (s t).radius ≤ (1 - a * (C - 1 : ℕ)) * D) :
    Consistent (validStates C D) (fun x => Real.exp (f x))
      (fun t => rwKernel adaptive tgt tiny f C (s t)) (4 + 8 / a ^ D) (8 * tiny / a ^ D) := by
  have h0 : ∀ t, 0 ≤ (s t).radius := fun t => le_trans (by positivity) (hlo t)
  have h1 : ∀ t, (s t).radius ≤ D := fun t => (hhi t).trans (by
    have : 0 ≤ a * (C - 1 : ℕ) * (D : ℝ) := by positivity
    linarith)
  have hp := pow_pos ha D
  have := consistent_of_converges (fun x _ => Real.exp_pos _)
    (K := fun t => rwKernel adaptive tgt tiny f C (s t))
    (fun t => rw_stochastic adaptive tgt ht f hC _ (h0 t) (h1 t)) one_pos
    (by linarith [pow_le_one₀ (n := D) ha.le ha1]) (by linarith) (by positivity)
    fun t₀ => rw_converges adaptive tgt ht f hC (fun t => s (t₀ + t)) ha ha1 (fun t => hlo _) fun t => hhi _
  convert this using 1
  · norm_num
  · ring

/-- **C87 (DMALA, binary).** -/
theorem dmalaBinary_averages (c : DCfg) (h : ℝ → ℝ) (f : (Fin D → ℤ) → ℝ) (g : (Fin D → ℤ) → Fin D → ℝ)
    (τ : (Fin D → ℤ) → ℝ) : ∃ A B : ℝ, ∀ s : ℕ → DState, (∀ t, dmalaFixed c (s t)) →
      (∀ t x, dmalaTau1 c h g (s t) x = some (τ x)) → ∀ tiny eps : ℝ, 0 ≤ tiny → 0 ≤ eps →
      Consistent (validStates 2 D) (fun x => Real.exp (f x))
        (fun t => dmalaBinaryKernel c tiny eps h f g (s t)) A (B * (2 * tiny + 2 * D * eps)) := by
  obtain ⟨a, ha, ha2, -, hc⟩ := dmalaBinary_converges c h f g τ
  have hp := pow_pos ha D
  refine ⟨4 + 8 * (1 : ℕ) / (1 - (1 - a ^ D)), 4 / a ^ D, fun s hfix hτ tiny eps ht he => ?_⟩
  have := consistent_of_converges (fun x _ => Real.exp_pos _)
    (K := fun t => dmalaBinaryKernel c tiny eps h f g (s t))
    (fun t => dmalaBinary_stochastic c tiny eps h f g (s t) ht (hfix t)) one_pos
    (by linarith [pow_le_one₀ (n := D) ha.le (by linarith)]) (by linarith) (by positivity)
    fun t₀ => hc (fun t => s (t₀ + t)) (fun t => hfix _) (fun t => hτ _) tiny eps ht he
  convert this using 1
  ring

/-- **C87 (DLMC, binary).** -/
theorem dlmcBinary_averages (c : DCfg) (hsol : c.solver ∈ knownSolvers) (h : ℝ → ℝ)
    (f : (Fin D → ℤ) → ℝ) (g : (Fin D → ℤ) → Fin D → ℝ)
    (τ : (Fin D → ℤ) → ℝ) : ∃ A B : ℝ, ∀ s : ℕ → DState, (∀ t, dlmcFixed c (s t)) →
      (∀ t x, dlmcTau1 c h g (s t) x = some (τ x)) → ∀ tiny eps : ℝ, 0 ≤ tiny → 0 ≤ eps →
      Consistent (validStates 2 D) (fun x => Real.exp (f x))
        (fun t => dlmcBinaryKernel c tiny eps h f g (s t)) A (B * (2 * tiny + 2 * D * eps)) := by
  obtain ⟨a, ha, ha2, -, hc⟩ := dlmcBinary_converges c hsol h f g τ
  have hp := pow_pos ha D
  refine ⟨4 + 8 * (1 : ℕ) / (1 - (1 - a ^ D)), 4 / a ^ D, fun s hfix hτ tiny eps ht he => ?_⟩
  have := consistent_of_converges (fun x _ => Real.exp_pos _)
    (K := fun t => dlmcBinaryKernel c tiny eps h f g (s t))
    (fun t => dlmcBinary_stochastic c tiny eps h f g (s t) hsol ht (hfix t)) one_pos
    (by linarith [pow_le_one₀ (n := D) ha.le (by linarith)]) (by linarith) (by positivity)
    fun t₀ => hc (fun t => s (t₀ + t)) (fun t => hfix _) (fun t => hτ _) tiny eps ht he
  convert this using 1
  ring

/-- **C87 (DMALA, categorical).** -/
theorem dmalaCateg_averages (c : DCfg) {C : ℕ} (hC : 2 < C) (h : ℝ → ℝ)
    (f : (Fin D → Fin C → ℝ) → ℝ) (g : (Fin D → Fin C → ℝ) → Fin D → Fin C → ℝ)
    (τ : (Fin D → ℤ) → ℝ) : ∃ A B : ℝ, ∀ s : ℕ → DState, (∀ t, dmalaFixed c (s t)) →
      (∀ t x, dmalaCategTau1 c h g (s t) (oneHotRow C x) = some (τ x)) → ∀ tiny : ℝ, 0 ≤ tiny →
      Consistent (validStates C D) (fun x => Real.exp (f (oneHotRow C x)))
        (fun t => dmalaCategKernel c tiny h C f g (s t)) A (B * tiny) := by
  obtain ⟨a, ha, ha2, hc⟩ := dmalaCateg_converges c hC h f g τ
  have hp := pow_pos ha D
  refine ⟨4 + 8 * (1 : ℕ) / (1 - (1 - a ^ D)), 8 / a ^ D, fun s hfix hτ tiny ht => ?_⟩
  have := consistent_of_converges (π := fun x => Real.exp (f (oneHotRow C x))) (fun x _ => Real.exp_pos _)
    (K := fun t => dmalaCategKernel c tiny h C f g (s t))
    (fun t => dmalaCateg_stochastic c tiny h f g (s t) hC ht (hfix t)) one_pos
    (by linarith [pow_le_one₀ (n := D) ha.le (by linarith)]) (by linarith) (by positivity)
    fun t₀ => hc (fun t => s (t₀ + t)) (fun t => hfix _) (fun t => hτ _) tiny ht
  convert this using 1
  ring

/-- **C87 (DLMC, categorical).** -/
theorem dlmcCateg_averages (c : DCfg) (hsol : c.solver ∈ knownSolvers) {C : ℕ} (hC : 2 < C) (h : ℝ → ℝ)
    (f : (Fin D → Fin C → ℝ) → ℝ) (g : (Fin D → Fin C → ℝ) → Fin D → Fin C → ℝ)
    (τ : (Fin D → ℤ) → ℝ) : ∃ A B : ℝ, ∀ s : ℕ → DState, (∀ t, dlmcFixed c (s t)) →
      (∀ t x, dlmcCategTau1 c h g (s t) (oneHotRow C x) = some (τ x)) → ∀ tiny : ℝ, 0 ≤ tiny →
      Consistent (validStates C D) (fun x => Real.exp (f (oneHotRow C x)))
        (fun t => dlmcCategKernel c tiny h C f g (s t)) A (B * tiny) := by
  obtain ⟨a, ha, ha2, hc⟩ := dlmcCateg_converges c hsol hC h f g τ
  have hp := pow_pos ha D
  refine ⟨4 + 8 * (1 : ℕ) / (1 - (1 - a ^ D)), 8 / a ^ D, fun s hfix hτ tiny ht => ?_⟩
  have := consistent_of_converges (π := fun x => Real.exp (f (oneHotRow C x))) (fun x _ => Real.exp_pos _)
    (K := fun t => dlmcCategKernel c tiny h C f g (s t))
    (fun t => dlmcCateg_stochastic c tiny h f g (s t) hsol hC ht (hfix t)) one_pos
    (by linarith [pow_le_one₀ (n := D) ha.le (by linarith)]) (by linarith) (by positivity)
    fun t₀ => hc (fun t => s (t₀ + t)) (fun t => hfix _) (fun t => hτ _) tiny ht
  convert this using 1
  ring

/-- **C87 (GWG, at least two flips).** -/
theorem gwg_averages (hD : 2 ≤ D) {k : ℕ} (hk : 2 ≤ k) (h : ℝ → ℝ) (f : (Fin D → ℤ) → ℝ)
    (g : (Fin D → ℤ) → Fin D → ℝ) : ∃ A B : ℝ, ∀ s : ℕ → LBState, ∀ tiny : ℝ, 0 ≤ tiny →
      Consistent (validStates 2 D) (fun x => Real.exp (f x))
        (fun t => gwgBinaryKernel k tiny h f g none (s t)) A (B * tiny) := by
  obtain ⟨a, ha, ha1, hc⟩ := gwg_converges hD hk h f g
  have hp := pow_pos ha (D + 2)
  refine ⟨4 + 8 * (D + 2 : ℕ) / (1 - (1 - a ^ (D + 2))), 8 * (D + 2 : ℕ) / a ^ (D + 2), fun s tiny ht => ?_⟩
  have := consistent_of_converges (fun x _ => Real.exp_pos _)
    (K := fun t => gwgBinaryKernel k tiny h f g none (s t))
    (fun t => gwg_stochastic (by omega) k ht h f g none (s t)) (by omega : 0 < D + 2)
    (by linarith [pow_le_one₀ (n := D + 2) ha.le ha1]) (by linarith) (by positivity)
    fun t₀ => hc (fun t => s (t₀ + t)) tiny ht
  convert this using 1
  ring

/-- **C87 (adaptive GWG, radius rounding to at least two flips).** -/
theorem gwgAdaptive_averages (hD : 2 ≤ D) (tgt : ℝ) (h : ℝ → ℝ) (f : (Fin D → ℤ) → ℝ)
    (g : (Fin D → ℤ) → Fin D → ℝ) : ∃ A B : ℝ, ∀ s : ℕ → LBState,
      (∀ t, 2 ≤ numFlips D (s t).radius) → ∀ tiny : ℝ, 0 ≤ tiny →
      Consistent (validStates 2 D) (fun x => Real.exp (f x))
        (fun t => gwgAdaptiveKernel (by omega) tgt tiny h f g none (s t)) A (B * tiny) := by
  obtain ⟨a, ha, ha1, hc⟩ := gwgAdaptive_converges hD tgt h f g
  have hp := pow_pos ha (D + 2)
  refine ⟨4 + 8 * (D + 2 : ℕ) / (1 - (1 - a ^ (D + 2))), 8 * (D + 2 : ℕ) / a ^ (D + 2),
    fun s hs tiny ht => ?_⟩
  have := consistent_of_converges (fun x _ => Real.exp_pos _)
    (K := fun t => gwgAdaptiveKernel (by omega) tgt tiny h f g none (s t))
    (fun t => gwgAdaptive_stochastic (by omega) tgt ht h f g none (s t)) (by omega : 0 < D + 2)
    (by linarith [pow_le_one₀ (n := D + 2) ha.le ha1]) (by linarith) (by positivity)
    fun t₀ => hc (fun t => s (t₀ + t)) (fun t => hs _) tiny ht
  convert this using 1
  ring

/-- **C87 (categorical GWG, one chain).** -/
theorem cgwg_averages (hD : 0 < D) {C : ℕ} (hC : 3 ≤ C) (h : ℝ → ℝ) (f : (Fin D → Fin C → ℝ) → ℝ)
    (g : (Fin D → Fin C → ℝ) → Fin D → Fin C → ℝ) : ∃ A B : ℝ, ∀ s : ℕ → LBState, ∀ tiny : ℝ, 0 ≤ tiny →
      Consistent (validStates C D) (fun x => Real.exp (f (oneHotRow C x)))
        (fun t => cgwgKernel tiny h C f g (s t)) A (B * tiny) := by
  obtain ⟨a, ha, ha1, hc⟩ := cgwg_converges hD hC h f g
  have hp := pow_pos ha (D + 2)
  refine ⟨4 + 8 * (D + 2 : ℕ) / (1 - (1 - a ^ (D + 2))), 8 * (D + 2 : ℕ) / a ^ (D + 2), fun s tiny ht => ?_⟩
  have := consistent_of_converges (π := fun x => Real.exp (f (oneHotRow C x))) (fun x _ => Real.exp_pos _)
    (K := fun t => cgwgKernel tiny h C f g (s t))
    (fun t => cgwg_stochastic hD (by omega) ht h f g (s t)) (by omega : 0 < D + 2)
    (by linarith [pow_le_one₀ (n := D + 2) ha.le ha1]) (by linarith) (by positivity)
    fun t₀ => hc (fun t => s (t₀ + t)) tiny ht
  convert this using 1
  ring

/-- **C87 (probability of a wrong answer).** For the Gibbs run: the probability that the reported average
is off by `ε` or more is at most `A M² / (n ε²)`. -/
theorem gibbs_average_prob (f : (Fin D → ℤ) → ℝ) {C : ℕ} (hC : 0 < C) (hD : 0 < D) :
    ∃ A : ℝ, ∀ (φ : (Fin D → ℤ) → ℝ) (M : ℝ), (∀ y ∈ validStates C D, |φ y| ≤ M) →
      ∀ x ∈ validStates C D, ∀ n, 0 < n → ∀ ε, 0 < ε →
        runExpect (validStates C D) (fun t => gibbsKernel f C ((gibbsUpdate C D)^[t] gibbsInit)) n x
          (fun l => if ε ≤ |runAverage φ l - Spec.expect (validStates C D)
            (target (validStates C D) fun x => Real.exp (f x)) φ| then 1 else 0) ≤ A * M ^ 2 / (n * ε ^ 2) := by
  obtain ⟨A, hA⟩ := gibbs_averages f hC hD
  refine ⟨A, fun φ M hφ x hx n hn ε hε => ?_⟩
  refine (hA.prob_le (fun t => gibbs_stochastic f hC _) hφ hx hn hε).trans (le_of_eq ?_)
  have : (n : ℝ) ≠ 0 := by exact_mod_cast hn.ne'
  field_simp
  ring

/-! ## The Hamming-ball sampler: averages that stay wrong -/

/-- Expected share of the time a run spends in `y`. -/
noncomputable def timeShare (S : Finset (Fin D → ℤ)) (K : ℕ → (Fin D → ℤ) → (Fin D → ℤ) → ℝ) (n : ℕ)
    (x y : Fin D → ℤ) : ℝ :=
  runExpect S K n x (runAverage fun z => if z = y then 1 else 0)

theorem timeShare_eq {S : Finset (Fin D → ℤ)} {K : ℕ → (Fin D → ℤ) → (Fin D → ℤ) → ℝ}
    (hK : ∀ t, Stochastic S (K t)) (n : ℕ) {x y : Fin D → ℤ} (hx : x ∈ S) (hy : y ∈ S) :
    timeShare S K n x y = (∑ i ∈ range n, iterate S K (i + 1) x y) / n := by
  unfold timeShare
  have e : runExpect S K n x (runAverage fun z => if z = y then 1 else 0) =
      1 / (n : ℝ) * runExpect S K n x (fun l => (l.map fun z => if z = y then (1 : ℝ) else 0).sum) := by
    rw [← runExpect_mul]
    refine runExpect_congr n x fun l hl _ => ?_
    unfold runAverage
    rw [hl, one_div, inv_mul_eq_div]
  rw [e, runExpect_sum hK _ n hx, one_div, inv_mul_eq_div]
  congr 1
  refine Finset.sum_congr rfl fun i _ => ?_
  unfold Spec.expect
  simp [hy]

/-- **C87 (refuted for the Hamming ball with larger blocks).** When one block covers the whole sample
there are a model and a `δ > 0` such that the shares of time a run spends in the states stay at distance
at least `δ - 1 / n` from the target probabilities, however long the run and wherever it starts. -/
theorem hb_averages_biased {C : ℕ} (hC : 2 ≤ C) (hD : 2 ≤ D) :
    ∃ (f : (Fin D → ℤ) → ℝ) (δ : ℝ), 0 < δ ∧ ∀ x ∈ validStates C D, ∀ n : ℕ, 0 < n →
      δ - 1 / n ≤ l1 (validStates C D)
        (timeShare (validStates C D)
          (fun t => hbKernel f C D (D * (C - 1)) ((hbUpdate C D D)^[t] blockInit)) n x)
        (target (validStates C D) fun x => Real.exp (f x)) := by
  obtain ⟨f, hf, -⟩ := hb_not_invariant (D := D) hC hD le_rfl
  have hne : (validStates C D).Nonempty := ⟨fun _ => 0, by
    rw [mem_validStates]; intro j; exact ⟨le_rfl, by exact_mod_cast (by omega : 0 < C)⟩⟩
  set S := validStates C D with hS
  set K₀ := hbKernel f C D (D * (C - 1)) (blockInit) with hK₀
  have hKt : (fun t => hbKernel f C D (D * (C - 1)) ((hbUpdate C D D)^[t] blockInit)) = fun _ => K₀ := by
    funext t
    exact hbKernel_index f C D _ (by rw [hb_state_iterate]; simp [blockInit])
  refine ⟨f, ?_⟩
  rw [hKt]
  set tgt := target S fun x => Real.exp (f x) with htgt
  have hK : ∀ t : ℕ, Stochastic S ((fun _ => K₀) t) := fun t => hb_stochastic f hC (by omega) _ _
  have hZ : 0 < ∑ x ∈ S, Real.exp (f x) := Finset.sum_pos (fun _ _ => Real.exp_pos _) hne
  have hδ : 0 < l1 S (push S tgt K₀) tgt := by
    refine lt_of_le_of_ne (l1_nonneg _ _ _) fun h0 => hf fun y hy => ?_
    have h1 : |push S tgt K₀ y - tgt y| = 0 :=
      (Finset.sum_eq_zero_iff_of_nonneg fun _ _ => abs_nonneg _).1 h0.symm y hy
    have h2 := sub_eq_zero.1 (abs_eq_zero.1 h1)
    rw [htgt] at h2
    unfold push target at h2
    have h3 : ∑ x ∈ S, Real.exp (f x) / (∑ x ∈ S, Real.exp (f x)) * K₀ x y =
        (∑ x ∈ S, Real.exp (f x) * K₀ x y) / ∑ x ∈ S, Real.exp (f x) := by
      rw [Finset.sum_div]; exact Finset.sum_congr rfl fun x _ => by ring
    rw [h3, div_left_inj' hZ.ne'] at h2
    exact h2
  refine ⟨l1 S (push S tgt K₀) tgt / 2, by linarith, fun x hx n hn => ?_⟩
  have hn' : (0 : ℝ) < n := by exact_mod_cast hn
  set ν := timeShare S (fun _ => K₀) n x with hν
  have hνe : ∀ y ∈ S, ν y = (∑ i ∈ range n, iterate S (fun _ => K₀) (i + 1) x y) / n := fun y hy =>
    timeShare_eq hK n hx hy
  have hν1 : ∑ y ∈ S, ν y = 1 := by
    rw [Finset.sum_congr rfl hνe, ← Finset.sum_div, Finset.sum_comm,
      Finset.sum_congr rfl fun i _ => (stochastic_iterate hK (i + 1)).2.1 x hx]
    simp [hn'.ne']
  have hstep : ∀ y ∈ S, push S ν K₀ y - ν y =
      (iterate S (fun _ => K₀) (n + 1) x y - iterate S (fun _ => K₀) 1 x y) / n := by
    intro y hy
    have e1 : push S ν K₀ y = (∑ i ∈ range n, iterate S (fun _ => K₀) (i + 2) x y) / n := by
      unfold push
      rw [Finset.sum_congr rfl fun z hz => by rw [hνe z hz]]
      simp only [div_mul_eq_mul_div, Finset.sum_mul]
      rw [← Finset.sum_div, Finset.sum_comm]
      rfl
    rw [e1, hνe y hy, ← sub_div, ← Finset.sum_sub_distrib,
      Finset.sum_range_sub (fun i => iterate S (fun _ => K₀) (i + 1) x y)]
  have h1 : l1 S (push S ν K₀) ν ≤ 2 / n := by
    unfold l1
    have hs1 := stochastic_iterate hK (n + 1)
    have hs2 := stochastic_iterate hK 1
    calc ∑ y ∈ S, |push S ν K₀ y - ν y|
        ≤ ∑ y ∈ S, (iterate S (fun _ => K₀) (n + 1) x y + iterate S (fun _ => K₀) 1 x y) / n := by
          refine Finset.sum_le_sum fun y hy => ?_
          rw [hstep y hy, abs_div, abs_of_pos hn']
          refine div_le_div_of_nonneg_right ?_ hn'.le
          have a1 := hs1.1 x hx y
          have a2 := hs2.1 x hx y
          rw [abs_le]; constructor <;> linarith
      _ = 2 / n := by
          rw [← Finset.sum_div, Finset.sum_add_distrib, hs1.2.1 x hx, hs2.2.1 x hx]; norm_num
  have h2 : l1 S (push S tgt K₀) (push S ν K₀) ≤ (1 - 0) * l1 S tgt ν :=
    l1_push_le (hK 0) (ν := tgt) (sum_target hZ) (fun z hz y _ => by rw [zero_mul]; exact (hK 0).1 z hz y)
      ((sum_target hZ).trans hν1.symm)
  have h3 := l1_triangle S (push S tgt K₀) (push S ν K₀) tgt
  have h4 := l1_triangle S (push S ν K₀) ν tgt
  have h5 : l1 S tgt ν = l1 S ν tgt := Finset.sum_congr rfl fun y _ => abs_sub_comm _ _
  have h6 : (1 : ℝ) / n = (2 / n) / 2 := by ring
  rw [h6]
  linarith

/-- Instance: a run of two steps of a fair coin; the expected squared error of the frequency is `1 / 8`. -/
example : runExpect (univ : Finset Bool) (fun _ _ _ => 1 / 2) 2 false
    (fun l => (runAverage (fun b => if b then 1 else 0) l - 1 / 2) ^ 2) = 1 / 8 := by
  simp only [runExpect, runAverage, Fintype.sum_bool, List.map_cons, List.map_nil, List.sum_cons,
    List.sum_nil, List.length_cons, List.length_nil]
  norm_num

/-- Instance: the radii of the default random walk meet the hypotheses of `rw_averages`. -/
example (f : (Fin 2 → ℤ) → ℝ) : Consistent (validStates 2 2) (fun x => Real.exp (f x))
    (fun _ => rwKernel false (1 / 4) 0 f 2 rwInit) 36 0 := by
  have := rw_averages (D := 2) false (1 / 4) le_rfl f le_rfl (fun _ => rwInit) (a := 1 / 2)
    (by norm_num) (by norm_num) (fun _ => by norm_num [rwInit]) (fun _ => by norm_num [rwInit])
  norm_num at this
  simpa using this

end Discs
