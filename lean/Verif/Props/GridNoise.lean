import Verif.Model.GridNoise
import Verif.Lemmas.Grid
import Verif.Props.RandomWalk
import Verif.Props.GWG
import Verif.Props.PathAux
import Verif.Props.DMALA
import Verif.Props.DLMC
import Verif.Props.Convergence

/-!
# C103: acceptance noise of finite precision

Every statement holds for noise on a grid of any size `M`; the code's is `noiseSize = 2 ^ 23`.
-/

namespace Discs

open Finset Spec

variable {D : ℕ}

theorem mhTiny_pos : 0 < mhTiny := by unfold mhTiny; norm_num

theorem _root_.Discs.Spec.IsMHStep.threshold {X Ω : Type*} {S : Finset X} {tiny : ℝ} {move : X → Ω → X} {lacc : X → Ω → ℝ}
    {stepf : X → Ω → ℝ → X} (h : IsMHStep S tiny move lacc stepf) {x : X} (hx : x ∈ S) (ω : Ω) :
    Threshold tiny (stepf x ω) :=
  ⟨lacc x ω, move x ω, x, fun u => ⟨h.accept x hx ω u, h.reject x hx ω u⟩⟩

theorem PathMH.grid_run {X : Type*} [DecidableEq X] {S : Finset X} {π : X → ℝ} {Ω : ℕ → Type*} [∀ t, Fintype (Ω t)]
    {q : ∀ t, X → Ω t → ℝ} {move : ∀ t, X → Ω t → X} {rev : ∀ t, X → Ω t → Ω t} {lacc : ∀ t, X → Ω t → ℝ}
    (H : ∀ t, PathMH S π (q t) (move t) (rev t) (lacc t)) {tiny : ℝ} (h0 : 0 < tiny) {stepf : ∀ t, X → Ω t → ℝ → X}
    (hs : ∀ t, IsMHStep S tiny (move t) (lacc t) (stepf t)) {M : ℕ} (hM : 0 < M) (n : ℕ) :
    NearlyInvariant S π (iterate S (fun t x y => lawG M (q t x) (stepf t x) y) n) (n * (2 * tiny + 2 / M)) :=
  nearlyInvariant_grid (e := id) hM h0 (fun x hx => ((H 0).pi_pos x hx).le) Function.injective_id
    (fun t x hx => (H t).prob x hx) (fun t _ hx ω => (hs t).threshold hx ω) (fun t => (H t).stochastic_step h0.le (hs t))
    (fun t => (H t).nearlyInvariant_step h0.le (hs t)) n

/-! ## The samplers -/

/-- C103 (random walk): with acceptance noise of `M` equally spaced values, `n` steps move the target by at most
`n (2e-24 + 2 / M)` of its mass. -/
theorem rw_grid_run (adaptive : Bool) (target : ℝ) (f : (Fin D → ℤ) → ℝ) {C : ℕ} (hC : 2 ≤ C) (s : ℕ → RWState)
    (h0 : ∀ t, 0 ≤ (s t).radius) (h1 : ∀ t, (s t).radius ≤ D) {M : ℕ} (hM : 0 < M) (n : ℕ) :
    NearlyInvariant (validStates C D) (fun x => Real.exp (f x))
      (iterate (validStates C D) (fun t => rwKernelG M adaptive target mhTiny f C (s t)) n) (n * (2 * mhTiny + 2 / M)) :=
  PathMH.grid_run (fun t => rw_pathMH f hC (h0 t) (h1 t)) mhTiny_pos (fun t => rw_isMH adaptive target mhTiny f C (s t)) hM n

/-- C103 (GWG, binary). -/
theorem gwg_grid_run (hD : 0 < D) (k : ℕ) (h : ℝ → ℝ) (f : (Fin D → ℤ) → ℝ) (g : (Fin D → ℤ) → Fin D → ℝ)
    (mask : Option (Fin D → ℝ)) (s : ℕ → LBState) {M : ℕ} (hM : 0 < M) (n : ℕ) :
    NearlyInvariant (validStates 2 D) (fun x => Real.exp (f x))
      (iterate (validStates 2 D) (fun t => gwgBinaryKernelG M k mhTiny h f g mask (s t)) n) (n * (2 * mhTiny + 2 / M)) :=
  PathMH.grid_run (fun _ => gwg_pathMH hD k h f g mask) mhTiny_pos (fun t => gwg_isMH k mhTiny h f g mask (s t)) hM n

/-- C103 (GWG, adaptive), at any prescribed radii. -/
theorem gwgAdaptive_grid_run (hD : 0 < D) (target : ℝ) (h : ℝ → ℝ) (f : (Fin D → ℤ) → ℝ)
    (g : (Fin D → ℤ) → Fin D → ℝ) (mask : Option (Fin D → ℝ)) (s : ℕ → LBState) {M : ℕ} (hM : 0 < M) (n : ℕ) :
    NearlyInvariant (validStates 2 D) (fun x => Real.exp (f x))
      (iterate (validStates 2 D) (fun t => gwgAdaptiveKernelG M hD target mhTiny h f g mask (s t)) n)
      (n * (2 * mhTiny + 2 / M)) :=
  PathMH.grid_run (fun _ => gwg_pathMH hD _ h f g mask) mhTiny_pos
    (fun t => gwgAdaptive_isMH hD target mhTiny h f g mask (s t)) hM n

/-- C103 (GWG, categorical, one chain). -/
theorem cgwg_grid_run (hD : 0 < D) {C : ℕ} (hC : 0 < C) (h : ℝ → ℝ) (f : (Fin D → Fin C → ℝ) → ℝ)
    (g : (Fin D → Fin C → ℝ) → Fin D → Fin C → ℝ) (s : ℕ → LBState) {M : ℕ} (hM : 0 < M) (n : ℕ) :
    NearlyInvariant (validStates C D) (fun x => Real.exp (f (oneHotRow C x)))
      (iterate (validStates C D) (fun t => cgwgKernelG M mhTiny h C f g (s t)) n) (n * (2 * mhTiny + 2 / M)) :=
  PathMH.grid_run (fun _ => cgwg_pathMH hD hC h f g) mhTiny_pos (fun t => cgwg_isMH mhTiny h f g (s t)) hM n

/-- C103 (PAFS, binary). -/
theorem pafs_grid_run (hD : 0 < D) {k : ℕ} (hk : k ≤ D) (h : ℝ → ℝ) (f : (Fin D → ℤ) → ℝ)
    (lr : (Fin D → ℤ) → Fin D → ℝ) (mask : Option (Fin D → ℝ)) (s : ℕ → LBState) {M : ℕ} (hM : 0 < M) (n : ℕ) :
    NearlyInvariant (validStates 2 D) (fun x => Real.exp (f x))
      (iterate (validStates 2 D) (fun t => pafsBinaryKernelG M k mhTiny h f lr mask (s t)) n) (n * (2 * mhTiny + 2 / M)) :=
  PathMH.grid_run (fun _ => pafs_pathMH hD hk h f lr mask) mhTiny_pos (fun t => pafs_isMH k mhTiny h f lr mask (s t)) hM n

theorem isProb_pafsOrderLaw (lp : Fin D → ℝ) : IsProb (pafsOrderLaw lp) := by
  refine ⟨fun σ => seqDraw_nonneg (fun _ => (Real.exp_pos _).le) _ _, ?_⟩
  have h := isProb_pafsIdxLaw (k := 0) (Nat.zero_le D) lp
  refine Eq.trans ?_ h.2
  simp only [← sum_pafsOrderLaw (Nat.zero_le D)]
  rw [Finset.sum_comm]
  refine Finset.sum_congr rfl fun σ _ => ?_
  rw [Fintype.sum_unique, if_pos (Subsingleton.elim _ _)]

/-- C103 (PAFS, adaptive), at any prescribed radii. -/
theorem pafsAdaptive_grid_run (hD : 0 < D) (target : ℝ) (h : ℝ → ℝ) (f : (Fin D → ℤ) → ℝ)
    (lr : (Fin D → ℤ) → Fin D → ℝ) (mask : Option (Fin D → ℝ)) (s : ℕ → LBState) {M : ℕ} (hM : 0 < M) (n : ℕ) :
    NearlyInvariant (validStates 2 D) (fun x => Real.exp (f x))
      (iterate (validStates 2 D) (fun t => pafsAdaptiveKernelG M target mhTiny h f lr mask (s t)) n)
      (n * (2 * mhTiny + 2 / M)) :=
  nearlyInvariant_grid (e := id) hM mhTiny_pos (fun _ _ => (Real.exp_pos _).le) Function.injective_id
    (fun _ x _ => isProb_pafsOrderLaw (pafsLogProb h lr mask x))
    (fun _ _ _ _ => by
      unfold pafsAdaptiveStep lbSelectBinary
      dsimp only
      exact threshold_mhStep mhTiny _ _ _ fun r => r 0)
    (fun t => pafsAdaptive_stochastic hD target mhTiny_nonneg h f lr mask (s t))
    (fun t => NearlyInvariant.congr
      (fun x _ y => pafsAdaptiveKernel_eq hD target mhTiny h f lr mask (s t) x y)
      ((pafs_pathMH hD (numFlips_le (s t).radius) h f lr mask).nearlyInvariant_step mhTiny_nonneg
        (isMH_mhMove _ _ _ _))) n

theorem isProb_pafsCategAdaptiveLaw {C : ℕ} (hC : 0 < C) (lp : Fin D × Fin C → ℝ) :
    IsProb (pafsCategAdaptiveLaw lp) := by
  have : Nonempty (Fin C) := ⟨⟨0, hC⟩⟩
  have h1 := isProb_pafsOrderLaw (pafsSite lp)
  have h2 := isProb_pi (p := fun j : Fin D => softmax (pafsVal lp j)) fun j => isProb_softmax _
  refine ⟨fun w => mul_nonneg (h1.1 _) (h2.1 _), ?_⟩
  unfold pafsCategAdaptiveLaw
  rw [Fintype.sum_prod_type]
  simp only [← Finset.mul_sum, h2.2, mul_one, h1.2]

/-- C103 (PAFS, categorical and adaptive), at any prescribed radii. -/
theorem pafsCategAdaptive_grid_run (hD : 0 < D) {C : ℕ} (hC : 0 < C) (target : ℝ) (h : ℝ → ℝ)
    (f : (Fin D → Fin C → ℝ) → ℝ) (lr : (Fin D → Fin C → ℝ) → Fin D → Fin C → ℝ) (mask : Option (Fin D → ℝ))
    (s : ℕ → LBState) {M : ℕ} (hM : 0 < M) (n : ℕ) :
    NearlyInvariant (validStates C D) (fun x => Real.exp (f (oneHotRow C x)))
      (iterate (validStates C D) (fun t => pafsCategAdaptiveKernelG M target mhTiny h C f lr mask (s t)) n)
      (n * (2 * mhTiny + 2 / M)) :=
  nearlyInvariant_grid (e := id) hM mhTiny_pos (fun _ _ => (Real.exp_pos _).le) Function.injective_id
    (fun _ x _ => isProb_pafsCategAdaptiveLaw hC (pafsCategLogProb h lr mask (oneHotRow C x)))
    (fun _ _ _ _ => threshold_mhStep mhTiny _ _ _ fun r => argmaxRow (r 0))
    (fun t => pafsCategAdaptive_stochastic hD hC target mhTiny_nonneg h f lr mask (s t))
    (fun t => NearlyInvariant.congr
      (fun _ hx y => pafsCategAdaptiveKernel_eq hD hC target mhTiny h f lr mask (s t) hx y)
      ((path_pathMH hC (numFlips_le (s t).radius) (fun x => f (oneHotRow C x))
        fun x => pafsCategLogProb h lr mask (oneHotRow C x)).nearlyInvariant_step mhTiny_nonneg
        (isMH_mhMove _ _ _ _))) n

theorem isProb_dmalaFlipLaw (c : DCfg) (h : ℝ → ℝ) (g : (Fin D → ℤ) → Fin D → ℝ) (s : DState) (x : Fin D → ℤ) :
    IsProb (dmalaFlipLaw c h g s x) := by
  unfold dmalaFlipLaw
  split
  · exact isProb_noFlip
  · exact isProb_flipLaw fun j => ⟨(dmalaFlipProb_mem _ _).1.le, (dmalaFlipProb_mem _ _).2.le⟩

/-- C103 (DMALA, binary), past the first adaptive step. -/
theorem dmalaBinary_grid_run (c : DCfg) (h : ℝ → ℝ) (f : (Fin D → ℤ) → ℝ) (g : (Fin D → ℤ) → Fin D → ℝ)
    (s : ℕ → DState) (hfix : ∀ t, dmalaFixed c (s t)) {M : ℕ} (hM : 0 < M) (n : ℕ) :
    NearlyInvariant (validStates 2 D) (fun x => Real.exp (f x))
      (iterate (validStates 2 D) (fun t => dmalaBinaryKernelG M c mhTiny llEps h f g (s t)) n)
      (n * (2 * mhTiny + 2 * D * llEps + 2 / M)) :=
  nearlyInvariant_grid (e := id) hM mhTiny_pos (fun _ _ => (Real.exp_pos _).le) Function.injective_id
    (fun t x _ => isProb_dmalaFlipLaw c h g (s t) x)
    (fun t x _ flip => by
      unfold dmalaBinaryStep
      dsimp only
      split
      · exact threshold_const _ _
      · dsimp only
        exact threshold_mhStep mhTiny _ _ _ fun r => r 0)
    (fun t => dmalaBinary_stochastic c mhTiny llEps h f g (s t) mhTiny_nonneg (hfix t))
    (fun t => dmalaBinary_nearlyInvariant c mhTiny llEps h f g (s t) mhTiny_nonneg llEps_nonneg (hfix t)) n

theorem isProb_categLaw {C : ℕ} (hC : 0 < C) (l : Fin D → Fin C → ℝ) : IsProb (categLaw l) := by
  have : Nonempty (Fin C) := ⟨⟨0, hC⟩⟩
  exact isProb_pi fun j => isProb_softmax _

/-- C103 (DMALA, categorical), past the first adaptive step. -/
theorem dmalaCateg_grid_run (c : DCfg) (h : ℝ → ℝ) {C : ℕ} (hC : 2 < C) (f : (Fin D → Fin C → ℝ) → ℝ)
    (g : (Fin D → Fin C → ℝ) → Fin D → Fin C → ℝ) (s : ℕ → DState) (hfix : ∀ t, dmalaFixed c (s t)) {M : ℕ} (hM : 0 < M)
    (n : ℕ) :
    NearlyInvariant (validStates C D) (fun x => Real.exp (f (oneHotRow C x)))
      (iterate (validStates C D) (fun t => dmalaCategKernelG M c mhTiny h C f g (s t)) n) (n * (2 * mhTiny + 2 / M)) :=
  nearlyInvariant_grid (e := id) hM mhTiny_pos (fun _ _ => (Real.exp_pos _).le) Function.injective_id
    (fun t x _ => by
      unfold dmalaCategLaw
      split <;> exact isProb_categLaw (by omega) _)
    (fun t x _ v => by
      unfold dmalaCategStep
      dsimp only
      split
      · exact threshold_const _ _
      · exact threshold_mhStep mhTiny _ _ _ fun r => argmaxRow (r 0))
    (fun t => dmalaCateg_stochastic c mhTiny h f g (s t) hC mhTiny_nonneg (hfix t))
    (fun t => dmalaCateg_nearlyInvariant c mhTiny h f g (s t) hC mhTiny_nonneg (hfix t)) n

/-- C103 (DLMC, binary, either solver), past step 0. -/
theorem dlmcBinary_grid_run (c : DCfg) (hsol : c.solver ∈ knownSolvers) (h : ℝ → ℝ) (f : (Fin D → ℤ) → ℝ)
    (g : (Fin D → ℤ) → Fin D → ℝ) (s : ℕ → DState) (hfix : ∀ t, dlmcFixed c (s t)) {M : ℕ} (hM : 0 < M) (n : ℕ) :
    NearlyInvariant (validStates 2 D) (fun x => Real.exp (f x))
      (iterate (validStates 2 D) (fun t => dlmcBinaryKernelG M c mhTiny llEps h f g (s t)) n)
      (n * (2 * mhTiny + 2 * D * llEps + 2 / M)) :=
  nearlyInvariant_grid (e := some) hM mhTiny_pos (fun _ _ => (Real.exp_pos _).le) (Option.some_injective _)
    (fun t x _ => by
      unfold dlmcFlipLaw
      split
      · exact isProb_noFlip
      · exact isProb_flipLaw fun j => ⟨(dlmcProb_mem c h g hsol _ x j).1.le, (dlmcProb_mem c h g hsol _ x j).2.le⟩)
    (fun t x _ flip => by
      unfold dlmcBinaryStep
      simp only [not_unknown c hsol, if_false]
      split
      · exact threshold_const _ _
      · dsimp only [Except.toOption, Option.map]
        exact threshold_mhStep mhTiny _ _ _ fun r => some (r 0))
    (fun t => dlmcBinary_stochastic c mhTiny llEps h f g (s t) hsol mhTiny_nonneg (hfix t))
    (fun t => dlmcBinary_nearlyInvariant c mhTiny llEps h f g (s t) hsol mhTiny_nonneg llEps_nonneg (hfix t)) n

/-- C103 (DLMC, categorical, either solver), past step 0. -/
theorem dlmcCateg_grid_run (c : DCfg) (hsol : c.solver ∈ knownSolvers) (h : ℝ → ℝ) {C : ℕ} (hC : 2 < C)
    (f : (Fin D → Fin C → ℝ) → ℝ) (g : (Fin D → Fin C → ℝ) → Fin D → Fin C → ℝ) (s : ℕ → DState)
    (hfix : ∀ t, dlmcFixed c (s t)) {M : ℕ} (hM : 0 < M) (n : ℕ) :
    NearlyInvariant (validStates C D) (fun x => Real.exp (f (oneHotRow C x)))
      (iterate (validStates C D) (fun t => dlmcCategKernelG M c mhTiny h C f g (s t)) n) (n * (2 * mhTiny + 2 / M)) :=
  nearlyInvariant_grid (e := some) hM mhTiny_pos (fun _ _ => (Real.exp_pos _).le) (Option.some_injective _)
    (fun t x _ => by
      unfold dlmcCategLaw
      split <;> exact isProb_categLaw (by omega) _)
    (fun t x _ v => by
      unfold dlmcCategStep
      simp only [not_unknown c hsol, if_false]
      split
      · exact threshold_const _ _
      · exact threshold_mhStep mhTiny _ _ _ fun r => some (argmaxRow (r 0)))
    (fun t => dlmcCateg_stochastic c mhTiny h f g (s t) hsol hC mhTiny_nonneg (hfix t))
    (fun t => dlmcCateg_nearlyInvariant c mhTiny h f g (s t) hsol hC mhTiny_nonneg (hfix t)) n

/-! ## The acceptance probability -/

open Classical in
/-- Probability that the acceptance test of `math_util.py:152-154` succeeds at log-ratio `lp` when the noise is one of `M`
equally spaced values. -/
noncomputable def gridAccept (M : ℕ) (lp : ℝ) : ℝ :=
  (((range M).filter fun k : ℕ => bernoulliLogp mhTiny ((k : ℝ) / M) lp).card : ℝ) / M

/-- C103 (acceptance probability): it exceeds the ideal one, `e^lp - 1e-24` cut to `[0, 1]`, by at most one grid step. -/
theorem gridAccept_close {M : ℕ} (hM : 0 < M) (lp : ℝ) :
    max 0 (min 1 (Real.exp lp - mhTiny)) ≤ gridAccept M lp ∧
      gridAccept M lp ≤ max 0 (min 1 (Real.exp lp - mhTiny)) + 1 / M := by
  unfold gridAccept
  rw [card_accept hM mhTiny_pos]
  exact acceptGrid_close hM mhTiny lp

/-- C103 (rare moves): every move whose probability ratio is above `1e-24` and at most `1 / M` is accepted with
probability exactly `1 / M`. -/
theorem gridAccept_rare {M : ℕ} (hM : 0 < M) {lp : ℝ} (h1 : mhTiny < Real.exp lp) (h2 : Real.exp lp ≤ 1 / M) :
    gridAccept M lp = 1 / M := by
  have hM' : (0 : ℝ) < M := by exact_mod_cast hM
  unfold gridAccept
  rw [card_accept hM mhTiny_pos]
  unfold acceptGrid
  have : ⌈(M : ℝ) * (Real.exp lp - mhTiny)⌉₊ = 1 := by
    rw [Nat.ceil_eq_iff one_ne_zero]
    constructor
    · rw [Nat.sub_self, Nat.cast_zero]
      exact mul_pos hM' (by linarith)
    · have := mhTiny_pos
      rw [le_div_iff₀ hM'] at h2
      push_cast
      nlinarith
  rw [this, min_eq_right (by omega)]
  norm_num

/-- C103 (vanishing moves): a move whose probability ratio is at most `1e-24` is never accepted. -/
theorem gridAccept_zero {M : ℕ} (hM : 0 < M) {lp : ℝ} (h : Real.exp lp ≤ mhTiny) : gridAccept M lp = 0 := by
  unfold gridAccept
  rw [card_accept hM mhTiny_pos]
  unfold acceptGrid
  rw [Nat.ceil_eq_zero.2 (mul_nonpos_of_nonneg_of_nonpos (by positivity) (by linarith))]
  simp

/-! ## Convergence -/

/-- C103 (convergence): with radii away from their ends the random-walk run still converges geometrically, down to a
floor of `(2e-24 + 2 / M) / a ^ dim`. -/
theorem rw_grid_converges (adaptive : Bool) (tgt : ℝ) (f : (Fin D → ℤ) → ℝ) {C : ℕ} (hC : 2 ≤ C) (s : ℕ → RWState)
    {a : ℝ} (ha : 0 < a) (ha1 : a ≤ 1) (hlo : ∀ t, a * (C - 1 : ℕ) * D ≤ (s t).radius)
    (hhi : ∀ t, (s t).radius ≤ (1 - a * (C - 1 : ℕ)) * D) {M : ℕ} (hM : 0 < M) :
    ConvergesWithin (validStates C D) (fun x => Real.exp (f x))
      (fun t => rwKernelG M adaptive tgt mhTiny f C (s t)) 1 (1 - a ^ D) ((2 * mhTiny + 2 / M) / a ^ D) := by
  have h0 : ∀ t, 0 ≤ (s t).radius := fun t => le_trans (by positivity) (hlo t)
  have h1 : ∀ t, (s t).radius ≤ D := fun t => (hhi t).trans (by
    have : 0 ≤ a * (C - 1 : ℕ) * (D : ℝ) := by positivity
    linarith)
  have hfloor := fun t => rw_floor hC ha (hlo t) (hhi t)
  have H := fun t => rw_pathMH f hC (h0 t) (h1 t)
  have hth : ∀ t, ∀ x ∈ validStates C D, ∀ ω, Threshold mhTiny ((fun x d u =>
      (rwStep adaptive tgt mhTiny f C (fun _ : Fin 1 => x) (fun _ => d) (fun _ => u) (s t)).1 0) x ω) :=
    fun t x hx ω => (rw_isMH adaptive tgt mhTiny f C (s t)).threshold hx ω
  have hK0 := fun t => rw_stochastic adaptive tgt mhTiny_nonneg f hC (s t) (h0 t) (h1 t)
  have hL0 : ∀ t, Stochastic (validStates C D) (rwKernel adaptive tgt 0 f C (s t)) :=
    fun t => rw_stochastic adaptive tgt le_rfl f hC (s t) (h0 t) (h1 t)
  have := convergesWithin_of_minor (S := validStates C D) (π := fun x => Real.exp (f x))
    (K := fun t => rwKernelG M adaptive tgt mhTiny f C (s t)) (L := fun t => rwKernel adaptive tgt 0 f C (s t))
    (ρ := 2 * mhTiny + 2 / M) (δ := a ^ D) (m := 1) one_pos (fun _ _ => Real.exp_pos _)
    (fun t => stochastic_lawG (e := id) hM mhTiny_pos (fun x hx => (H t).prob x hx) (hth t) Function.injective_id (hK0 t))
    hL0 (fun t => invariant_of_reversible (rw_reversible adaptive tgt f hC (s t) (h0 t) (h1 t)) (hL0 t))
    (by have := mhTiny_pos; positivity) (fun t x hx => ?_) (by positivity) (pow_le_one₀ ha.le ha1)
    (fun _ => target (validStates C D) fun x => Real.exp (f x)) (fun _ => sum_target ?_) (fun t x hx y hy => ?_)
  · intro x hx n
    simpa using this x hx n
  · calc _ ≤ ∑ y ∈ validStates C D, (|rwKernelG M adaptive tgt mhTiny f C (s t) x y - rwKernel adaptive tgt mhTiny f C (s t) x y|
            + |rwKernel adaptive tgt mhTiny f C (s t) x y - rwKernel adaptive tgt 0 f C (s t) x y|) :=
          Finset.sum_le_sum fun y _ => abs_sub_le _ _ _
      _ ≤ 2 / M + 2 * mhTiny := by
          rw [Finset.sum_add_distrib]
          refine add_le_add (lawG_close (e := id) hM mhTiny_pos ((H t).prob x hx) (hth t x hx) Function.injective_id _) ?_
          have e : ∀ tiny, 0 ≤ tiny → ∀ y, rwKernel adaptive tgt tiny f C (s t) x y = _ := fun tiny ht y =>
            (rw_isMH adaptive tgt tiny f C (s t)).lawU_eq ht (fun _ => rwDrawLaw C D (s t).radius) x hx y
          simp only [e mhTiny mhTiny_nonneg, e 0 le_rfl]
          exact mhKernel_tiny_close mhTiny_nonneg x ((H t).prob x hx)
      _ = _ := add_comm _ _
  · exact Finset.sum_pos (fun _ _ => Real.exp_pos _) ⟨fun _ => 0, by rw [mem_validStates]; intro j; constructor <;> omega⟩
  · have e : iterate (validStates C D) (fun i => (fun t => rwKernel adaptive tgt 0 f C (s t)) (t + i)) 1 x y =
        rwKernel adaptive tgt 0 f C (s t) x y := by
      simp [iterate, comp, hx]
    rw [e]
    have := (H t).minor (by positivity : 0 < a ^ D) (fun x hx y hy => by
      obtain ⟨d, hd⟩ := rw_reach hC hx hy
      exact ⟨d, hd, hfloor t _, hfloor t _⟩) x hx y hy
    refine this.trans (le_of_eq ?_)
    exact ((rw_isMH adaptive tgt 0 f C (s t)).lawU_eq le_rfl (fun _ => rwDrawLaw C D (s t).radius) x hx y).symm

/-! ## What is lost: rare states -/

/-- One binary site with log-probabilities `0` and `-50`. -/
def rareModel (x : Fin 1 → ℤ) : ℝ := -50 * x 0

/-- The non-adaptive random walk at its initial radius always flips the only site. -/
theorem rwKernelG_flip {M : ℕ} (f : (Fin 1 → ℤ) → ℝ) {x y : Fin 1 → ℤ} (hx : x ∈ validStates 2 1) (hy : y ∈ validStates 2 1)
    (hxy : x ≠ y) : rwKernelG M false (1 / 4) mhTiny f 2 rwInit x y = gridAccept M (f y - f x) := by
  have h0 : ∀ d : RWDraw 2 1, d ≠ (fun _ => true, fun _ => 0) → rwDrawLaw 2 1 rwInit.radius d = 0 := by
    intro d hd
    have : d.1 0 = false := by
      cases hb : d.1 0
      · rfl
      · refine absurd (Prod.ext (funext fun j => ?_) (funext fun j => Fin.ext (by have := (d.2 j).2; omega))) hd
        rw [Subsingleton.elim j 0, hb]
    simp [rwDrawLaw, this, rwInit]
  have hp : rwPropose (C := 2) x (fun _ => true, fun _ => 0) = y := by
    have hx' := mem_validStates_two.1 hx 0
    have hy' := mem_validStates_two.1 hy 0
    have : x 0 ≠ y 0 := fun h => hxy (funext fun j => by rw [Subsingleton.elim j 0, h])
    funext j
    rw [Subsingleton.elim j 0]
    simp only [rwPropose, if_true]
    rcases hx' with h | h <;> rcases hy' with h' | h' <;> simp_all
  unfold rwKernelG lawG
  rw [Finset.sum_eq_single (fun _ => true, fun _ => 0) (fun d _ hd => by rw [h0 d hd, zero_mul]) (by simp)]
  have h1 : rwDrawLaw 2 1 rwInit.radius (fun _ => true, fun _ => 0) = 1 := by simp [rwDrawLaw, rwInit]
  rw [h1, one_mul]
  unfold gridAccept
  congr 2
  refine congrArg Finset.card (Finset.ext fun k => ?_)
  refine (@Finset.mem_filter _ _ (_) _ _).trans (Iff.trans (and_congr_right fun _ => ?_) (@Finset.mem_filter _ _ (_) _ _).symm)
  by_cases hb : bernoulliLogp mhTiny ((k : ℝ) / M) (f y - f x)
  · have := (rw_isMH (D := 1) false (1 / 4) mhTiny f 2 rwInit).accept x hx (fun _ => true, fun _ => 0) ((k : ℝ) / M)
      (by rw [hp]; exact hb)
    exact ⟨fun _ => hb, fun _ => this.trans hp⟩
  · have := (rw_isMH (D := 1) false (1 / 4) mhTiny f 2 rwInit).reject x hx (fun _ => true, fun _ => 0) ((k : ℝ) / M)
      (by rw [hp]; exact hb)
    exact ⟨fun h => absurd (this.symm.trans h) hxy, fun h => absurd h hb⟩

theorem mem_zero_one : (![0] : Fin 1 → ℤ) ∈ validStates 2 1 ∧ (![1] : Fin 1 → ℤ) ∈ validStates 2 1 := by
  constructor <;> rw [mem_validStates_two] <;> intro j <;> rw [Subsingleton.elim j 0] <;> simp

theorem sum_valid_one (F : (Fin 1 → ℤ) → ℝ) : ∑ x ∈ validStates 2 1, F x = F ![0] + F ![1] := by
  have : validStates 2 1 = {![0], ![1]} := by
    ext x
    rw [mem_validStates_two, Finset.mem_insert, Finset.mem_singleton]
    constructor
    · intro h
      rcases h 0 with h | h
      · left; funext j; rw [Subsingleton.elim j 0, h]; rfl
      · right; funext j; rw [Subsingleton.elim j 0, h]; rfl
    · rintro (rfl | rfl) j <;> rw [Subsingleton.elim j 0] <;> simp
  rw [this, Finset.sum_pair (by decide)]

theorem rare_bounds : mhTiny < Real.exp (-50) ∧ Real.exp (-50) ≤ 1 / (noiseSize : ℝ) ∧ Real.exp (-50) < 1 / 10 ^ 21 := by
  have e : Real.exp 50 = Real.exp 1 ^ 50 := by rw [← Real.exp_nat_mul]; norm_num
  have hup : Real.exp 50 < 10 ^ 24 := by
    rw [e]
    calc Real.exp 1 ^ 50 < 2.7182818286 ^ 50 := pow_lt_pow_left₀ Real.exp_one_lt_d9 (Real.exp_pos 1).le (by norm_num)
      _ < 10 ^ 24 := by norm_num
  have hlo : (10 : ℝ) ^ 21 < Real.exp 50 := by
    rw [e]
    calc (10 : ℝ) ^ 21 < 2.7182818283 ^ 50 := by norm_num
      _ < Real.exp 1 ^ 50 := pow_lt_pow_left₀ Real.exp_one_gt_d9 (by norm_num) (by norm_num)
  have hpos := Real.exp_pos 50
  refine ⟨?_, ?_, ?_⟩
  · rw [Real.exp_neg, mhTiny, lt_inv_comm₀ (by norm_num) hpos]
    refine hup.trans_le (by norm_num)
  · rw [Real.exp_neg, ← one_div]
    refine one_div_le_one_div_of_le (by norm_num [noiseSize]) ?_
    refine le_trans ?_ hlo.le
    norm_num [noiseSize]
  · rw [Real.exp_neg, ← one_div]
    exact one_div_lt_one_div_of_lt (by norm_num) hlo

/-- C103, the negation for rare states: the stationary distribution of the sampler gives the rare state of `rareModel`
probability exactly `1 / (2^23 + 1)`, more than `10^14` times its probability under the model. -/
theorem rw_grid_rare {ν : (Fin 1 → ℤ) → ℝ} (hsum : ∑ x ∈ validStates 2 1, ν x = 1) :
    (Invariant (validStates 2 1) ν (rwKernelG noiseSize false (1 / 4) mhTiny rareModel 2 rwInit) ↔
      ν ![1] = 1 / (2 ^ 23 + 1)) ∧
    10 ^ 14 * target (validStates 2 1) (fun x => Real.exp (rareModel x)) ![1] < 1 / (2 ^ 23 + 1) := by
  obtain ⟨h1, h2, h3⟩ := rare_bounds
  obtain ⟨m0, m1⟩ := mem_zero_one
  have hN : 0 < noiseSize := by norm_num [noiseSize]
  have hr0 : rareModel ![0] = 0 := by simp [rareModel]
  have hr1 : rareModel ![1] = -50 := by simp [rareModel]
  have hs := (stochastic_lawG (e := id) hN mhTiny_pos (p := fun _ => rwDrawLaw 2 1 rwInit.radius)
    (f := fun x d u => (rwStep false (1 / 4) mhTiny rareModel 2 (fun _ : Fin 1 => x) (fun _ => d) (fun _ => u) rwInit).1 0)
    (S := validStates 2 1) (fun _ _ => isProb_rwDrawLaw le_rfl (by norm_num [rwInit]) (by norm_num [rwInit]))
    (fun x hx d => (rw_isMH false (1 / 4) mhTiny rareModel 2 rwInit).threshold hx d) Function.injective_id
    (rw_stochastic false (1 / 4) mhTiny_nonneg rareModel le_rfl rwInit (by norm_num [rwInit]) (by norm_num [rwInit]))).2.1
  set K := rwKernelG noiseSize false (1 / 4) mhTiny rareModel 2 rwInit with hK
  have k01 : K ![0] ![1] = 1 / 2 ^ 23 := by
    rw [hK, rwKernelG_flip rareModel m0 m1 (by decide), hr0, hr1, gridAccept_rare hN (by simpa using h1) (by simpa using h2)]
    norm_num [noiseSize]
  have k10 : K ![1] ![0] = 1 := by
    rw [hK, rwKernelG_flip rareModel m1 m0 (by decide), hr0, hr1]
    unfold gridAccept
    rw [card_accept hN mhTiny_pos]
    refine acceptGrid_one hN ?_
    unfold acceptProb
    have : (2 : ℝ) ≤ Real.exp (0 - -50) := by
      have := Real.add_one_le_exp (0 - -50 : ℝ)
      linarith
    have ht : mhTiny ≤ 1 := by norm_num [mhTiny]
    rw [min_eq_left (by linarith), max_eq_right zero_le_one]
  have r0 : K ![0] ![0] + K ![0] ![1] = 1 := by rw [← sum_valid_one]; exact hs _ m0
  have r1 : K ![1] ![0] + K ![1] ![1] = 1 := by rw [← sum_valid_one]; exact hs _ m1
  rw [sum_valid_one] at hsum
  refine ⟨⟨fun h => ?_, fun h => ?_⟩, ?_⟩
  · have := h ![1] m1
    rw [sum_valid_one, k01] at this
    have k11 : K ![1] ![1] = 0 := by linarith
    rw [k11] at this
    linarith
  · have k11 : K ![1] ![1] = 0 := by linarith
    have k00 : K ![0] ![0] = 1 - 1 / 2 ^ 23 := by linarith
    have hν0 : ν ![0] = 1 - 1 / (2 ^ 23 + 1) := by linarith
    intro y hy
    rw [sum_valid_one]
    rcases mem_validStates_two.1 hy 0 with hy | hy
    · have : y = ![0] := funext fun j => by rw [Subsingleton.elim j 0, hy]; rfl
      rw [this, k00, k10, hν0, h]
      norm_num
    · have : y = ![1] := funext fun j => by rw [Subsingleton.elim j 0, hy]; rfl
      rw [this, k01, k11, hν0, h]
      norm_num
  · unfold target
    rw [sum_valid_one]
    simp only [hr0, hr1, Real.exp_zero]
    have hp := Real.exp_pos (-50)
    have : Real.exp (-50) / (1 + Real.exp (-50)) ≤ Real.exp (-50) := div_le_self hp.le (by linarith)
    calc _ ≤ 10 ^ 14 * Real.exp (-50) := by linarith
      _ < 10 ^ 14 * (1 / 10 ^ 21) := by linarith
      _ < _ := by norm_num

/-- Instance for C103: the code's grid has eight million values, and the adaptive random walk on four sites is covered. -/
example (f : (Fin 4 → ℤ) → ℝ) (n : ℕ) : NearlyInvariant (validStates 2 4) (fun x => Real.exp (f x))
    (iterate (validStates 2 4) (fun _ => rwKernelG noiseSize true (1 / 4) mhTiny f 2 rwInit) n)
    (n * (2 * mhTiny + 2 / noiseSize)) :=
  rw_grid_run true (1 / 4) f le_rfl (fun _ => rwInit) (fun _ => by norm_num [rwInit]) (fun _ => by norm_num [rwInit])
    (by norm_num [noiseSize]) n

end Discs
