import Verif.Lemmas.PathAuxCateg
import Verif.Props.GWG
import Verif.Props.DLMC
import Mathlib.Analysis.Complex.ExponentialBounds

/-!
# Properties C19, C20, C21: path-auxiliary sampler
-/

namespace Discs

open Finset Spec

variable {D : ℕ}

theorem sum_exp_pafsLogProb (hD : 0 < D) (h : ℝ → ℝ) (lr : (Fin D → ℤ) → Fin D → ℝ)
    (mask : Option (Fin D → ℝ)) (x : Fin D → ℤ) : ∑ j, Real.exp (pafsLogProb h lr mask x j) = 1 := by
  have : Nonempty (Fin D) := ⟨⟨0, hD⟩⟩
  exact sum_exp_logSoftmax _

theorem gwgPropose_rev {k : ℕ} (x : Fin D → ℤ) (idx : Fin k → Fin D) :
    gwgPropose x (fun i => idx i.rev) = gwgPropose x idx := by
  funext j
  unfold gwgPropose
  have : (∃ i : Fin k, idx i.rev = j) ↔ ∃ i, idx i = j :=
    ⟨fun ⟨i, h⟩ => ⟨i.rev, h⟩, fun ⟨i, h⟩ => ⟨i.rev, by rwa [Fin.rev_rev]⟩⟩
  simp only [this]

/-! ## C19: binary, fixed number of flips -/

/-- Log acceptance ratio of the binary sampler for one chain. -/
noncomputable def pafsLogAcc {k : ℕ} (h : ℝ → ℝ) (f : (Fin D → ℤ) → ℝ)
    (lr : (Fin D → ℤ) → Fin D → ℝ) (mask : Option (Fin D → ℝ)) (x : Fin D → ℤ) (idx : Fin k → Fin D) :
    ℝ :=
  f (gwgPropose x idx) + pafsLlRev (pafsLogProb h lr mask (gwgPropose x idx)) idx - f x -
    pafsLlIdx (pafsLogProb h lr mask x) idx

theorem pafs_pathMH (hD : 0 < D) {k : ℕ} (hk : k ≤ D) (h : ℝ → ℝ) (f : (Fin D → ℤ) → ℝ)
    (lr : (Fin D → ℤ) → Fin D → ℝ) (mask : Option (Fin D → ℝ)) :
    PathMH (validStates 2 D) (fun x => Real.exp (f x))
      (fun x => pafsIdxLaw (k := k) (pafsLogProb h lr mask x)) gwgPropose
      (fun _ idx i => idx i.rev) (pafsLogAcc h f lr mask) := by
  have hs := sum_exp_pafsLogProb hD h lr mask
  have key : ∀ x (idx : Fin k → Fin D), Function.Injective idx → pafsLogAcc h f lr mask x idx =
      f (gwgPropose x idx) +
        Real.log (pafsIdxLaw (pafsLogProb h lr mask (gwgPropose x idx)) fun i => idx i.rev) - f x -
        Real.log (pafsIdxLaw (pafsLogProb h lr mask x) idx) := by
    intro x idx hi
    unfold pafsLogAcc
    rw [← exp_pafsLlIdx (hs x) hi, ← exp_pafsLlRev (hs _) hi, Real.log_exp, Real.log_exp]
  exact {
    pi_pos := fun _ _ => Real.exp_pos _
    prob := fun x _ => isProb_pafsIdxLaw hk _
    closed := fun x hx idx _ => gwgPropose_valid hx idx
    back := fun x _ idx _ _ => by rw [gwgPropose_rev, gwgPropose_back]
    invol := fun _ _ idx _ _ => by simp
    ratio := fun x _ idx hq _ => by
      have hi := pafsIdxLaw_ne_zero hq
      unfold pafsLogAcc
      rw [← exp_pafsLlIdx (hs x) hi, ← exp_pafsLlRev (hs _) hi, ← Real.exp_add, ← Real.exp_add,
        ← Real.exp_add]
      congr 1; ring
    antisymm := fun x _ idx hq _ => by
      have hi := pafsIdxLaw_ne_zero hq
      have hi' : Function.Injective fun i : Fin k => idx i.rev := fun _ _ e => Fin.rev_injective (hi e)
      rw [key _ _ hi, key _ _ hi', gwgPropose_rev, gwgPropose_back]
      simp only [Fin.rev_rev]
      ring }

theorem pafs_isMH (k : ℕ) (tiny : ℝ) (h : ℝ → ℝ) (f : (Fin D → ℤ) → ℝ)
    (lr : (Fin D → ℤ) → Fin D → ℝ) (mask : Option (Fin D → ℝ)) (s : LBState) :
    IsMHStep (validStates 2 D) tiny (gwgPropose (k := k)) (pafsLogAcc h f lr mask) (fun x idx u =>
      (pafsBinaryStep tiny 4 h f lr (mask.map fun m (_ : Fin 1) => m) (fun _ : Fin 1 => x)
        (fun _ => idx) (fun _ => u) s).1 0) := by
  have hm : ∀ b : Fin 1, (mask.map fun m (_ : Fin 1) => m).map (· b) = mask := by
    intro b; cases mask <;> rfl
  constructor
  · intro x _ idx u hacc
    simp only [pafsBinaryStep, lbSelectBinary, hm]
    rw [mhStep_accept hacc]
  · intro x _ idx u hrej
    simp only [pafsBinaryStep, lbSelectBinary, hm]
    rw [mhStep_reject hrej]

/-- C19 (kernel): the binary path-auxiliary step is a probability kernel on binary samples. -/
theorem pafs_stochastic (hD : 0 < D) {k : ℕ} (hk : k ≤ D) {tiny : ℝ} (ht : 0 ≤ tiny) (h : ℝ → ℝ)
    (f : (Fin D → ℤ) → ℝ) (lr : (Fin D → ℤ) → Fin D → ℝ) (mask : Option (Fin D → ℝ)) (s : LBState) :
    Stochastic (validStates 2 D) (pafsBinaryKernel k tiny h f lr mask s) :=
  (pafs_pathMH hD hk h f lr mask).stochastic_step ht (pafs_isMH k tiny h f lr mask s)

/-- C19 (ideal acceptance test): exactly reversible, whatever the local scores, balancing function, mask
and number of flips. -/
theorem pafs_reversible (hD : 0 < D) {k : ℕ} (hk : k ≤ D) (h : ℝ → ℝ) (f : (Fin D → ℤ) → ℝ)
    (lr : (Fin D → ℤ) → Fin D → ℝ) (mask : Option (Fin D → ℝ)) (s : LBState) :
    Reversible (validStates 2 D) (fun x => Real.exp (f x)) (pafsBinaryKernel k 0 h f lr mask s) :=
  (pafs_pathMH hD hk h f lr mask).reversible_step (pafs_isMH k 0 h f lr mask s)

/-- C19 (the code's acceptance test): `n` steps move the target by at most `n · 2e-24` of its mass. -/
theorem pafs_nearlyInvariant_run (hD : 0 < D) {k : ℕ} (hk : k ≤ D) (h : ℝ → ℝ) (f : (Fin D → ℤ) → ℝ)
    (lr : (Fin D → ℤ) → Fin D → ℝ) (mask : Option (Fin D → ℝ)) (s : ℕ → LBState) (n : ℕ) :
    NearlyInvariant (validStates 2 D) (fun x => Real.exp (f x))
      (iterate (validStates 2 D) (fun t => pafsBinaryKernel k mhTiny h f lr mask (s t)) n)
      (n * (2 * mhTiny)) :=
  nearlyInvariant_iterate (fun t => pafs_stochastic hD hk mhTiny_nonneg h f lr mask (s t))
    (fun t => (pafs_pathMH hD hk h f lr mask).nearlyInvariant_step mhTiny_nonneg
      (pafs_isMH k mhTiny h f lr mask (s t))) n

/-- C19: distinct sites are flipped, exactly `k` of them. -/
theorem pafs_flips {k : ℕ} {lp : Fin D → ℝ} {idx : Fin k → Fin D} (hq : pafsIdxLaw lp idx ≠ 0)
    (x : Fin D → ℤ) (hx : x ∈ validStates 2 D) :
    (univ.filter fun j => gwgPropose x idx j ≠ x j).card = k := by
  have hi := pafsIdxLaw_ne_zero hq
  have : (univ.filter fun j => gwgPropose x idx j ≠ x j) = univ.map ⟨idx, hi⟩ := by
    ext j
    simp only [mem_filter, mem_univ, true_and, mem_map, Function.Embedding.coeFn_mk]
    have := mem_validStates_two.1 hx j
    unfold gwgPropose
    by_cases hj : ∃ i, idx i = j
    · rw [if_pos hj]; exact ⟨fun _ => hj, fun _ => by omega⟩
    · rw [if_neg hj]; exact ⟨fun h => absurd rfl h, fun h => absurd h hj⟩
  rw [this, Finset.card_map, Finset.card_univ, Fintype.card_fin]

/-- Instance for C19: two of three sites, drawn in the order 2, 0, have positive probability. -/
example : pafsIdxLaw (fun _ : Fin 3 => (0 : ℝ)) ![2, 0] ≠ 0 ∧
    gwgPropose ![0, 1, 0] (![2, 0] : Fin 2 → Fin 3) = ![1, 1, 1] := by
  refine ⟨?_, by decide⟩
  unfold pafsIdxLaw
  rw [seqDraw_ne_zero_iff fun _ => Real.exp_pos _]
  exact ⟨by decide, by simp⟩

/-! ## C20: adaptive -/

/-- A Metropolis–Hastings step written out. -/
noncomputable def mhMove {X Ω : Type*} (tiny : ℝ) (move : X → Ω → X) (lacc : X → Ω → ℝ) (x : X) (ω : Ω)
    (u : ℝ) : X :=
  open Classical in if bernoulliLogp tiny u (lacc x ω) then move x ω else x

theorem isMH_mhMove {X Ω : Type*} (S : Finset X) (tiny : ℝ) (move : X → Ω → X) (lacc : X → Ω → ℝ) :
    IsMHStep S tiny move lacc (mhMove tiny move lacc) :=
  ⟨fun _ _ _ _ h => if_pos h, fun _ _ _ _ h => if_neg h⟩

theorem numFlips_le (r : ℝ) : numFlips D r ≤ D := by
  unfold numFlips
  omega

theorem pafsAdaptiveKernel_eq (hD : 0 < D) (target tiny : ℝ) (h : ℝ → ℝ) (f : (Fin D → ℤ) → ℝ)
    (lr : (Fin D → ℤ) → Fin D → ℝ) (mask : Option (Fin D → ℝ)) (s : LBState) (x y : Fin D → ℤ) :
    pafsAdaptiveKernel target tiny h f lr mask s x y =
      lawU (pafsIdxLaw (k := numFlips D s.radius) (pafsLogProb h lr mask x))
        (mhMove tiny gwgPropose (pafsLogAcc h f lr mask) x) y := by
  have hs := sum_exp_pafsLogProb hD h lr mask
  have hn := numFlips_le (D := D) s.radius
  have hm : ∀ b : Fin 1, (mask.map fun m (_ : Fin 1) => m).map (· b) = mask := by
    intro b; cases mask <;> rfl
  unfold pafsAdaptiveKernel
  rw [lawU_push _ (firstSites hn) (f' := mhMove tiny gwgPropose (pafsLogAcc h f lr mask) x)]
  · simp only [sum_pafsOrderLaw]
  · intro σ u
    have hi := firstSites_injective hn σ
    have hacc : ∀ y, f y + pafsLlBack (pafsLogProb h lr mask y) (numFlips D s.radius) σ - f x -
        ∑ j, pafsLlSel (pafsLogProb h lr mask x) (numFlips D s.radius) σ j =
        f y + pafsLlRev (pafsLogProb h lr mask y) (firstSites hn σ) - f x -
        pafsLlIdx (pafsLogProb h lr mask x) (firstSites hn σ) := by
      intro y
      have e1 := exp_sum_pafsLlSel hn (hs x) σ
      rw [← exp_pafsLlIdx (hs x) hi] at e1
      have e2 := exp_pafsLlBack hn (hs y) σ
      rw [← exp_pafsLlRev (hs y) hi] at e2
      rw [Real.exp_injective e1, Real.exp_injective e2]
    simp only [pafsAdaptiveStep, lbSelectBinary, hm, maskFlip_eq hn, hacc]
    unfold mhMove
    by_cases hb : bernoulliLogp tiny u (pafsLogAcc h f lr mask x (firstSites hn σ))
    · rw [if_pos hb, mhStep_accept hb]
    · rw [if_neg hb, mhStep_reject hb]

/-- C20 (binary kernel). -/
theorem pafsAdaptive_stochastic (hD : 0 < D) (target : ℝ) {tiny : ℝ} (ht : 0 ≤ tiny) (h : ℝ → ℝ)
    (f : (Fin D → ℤ) → ℝ) (lr : (Fin D → ℤ) → Fin D → ℝ) (mask : Option (Fin D → ℝ)) (s : LBState) :
    Stochastic (validStates 2 D) (pafsAdaptiveKernel target tiny h f lr mask s) :=
  Stochastic.congr (fun x _ y => pafsAdaptiveKernel_eq hD target tiny h f lr mask s x y)
    ((pafs_pathMH hD (numFlips_le s.radius) h f lr mask).stochastic_step ht (isMH_mhMove _ _ _ _))

/-- C20 (binary, ideal acceptance test): exactly reversible at any radius. -/
theorem pafsAdaptive_reversible (hD : 0 < D) (target : ℝ) (h : ℝ → ℝ)
    (f : (Fin D → ℤ) → ℝ) (lr : (Fin D → ℤ) → Fin D → ℝ) (mask : Option (Fin D → ℝ)) (s : LBState) :
    Reversible (validStates 2 D) (fun x => Real.exp (f x))
      (pafsAdaptiveKernel target 0 h f lr mask s) :=
  Reversible.congr (fun x _ y => pafsAdaptiveKernel_eq hD target 0 h f lr mask s x y)
    ((pafs_pathMH hD (numFlips_le s.radius) h f lr mask).reversible_step (isMH_mhMove _ _ _ _))

/-- C20 (binary, the code's acceptance test): at any prescribed radii, `n` steps move the target by at
most `n · 2e-24` of its mass. -/
theorem pafsAdaptive_nearlyInvariant_run (hD : 0 < D) (target : ℝ) (h : ℝ → ℝ)
    (f : (Fin D → ℤ) → ℝ) (lr : (Fin D → ℤ) → Fin D → ℝ) (mask : Option (Fin D → ℝ))
    (s : ℕ → LBState) (n : ℕ) :
    NearlyInvariant (validStates 2 D) (fun x => Real.exp (f x))
      (iterate (validStates 2 D) (fun t => pafsAdaptiveKernel target mhTiny h f lr mask (s t)) n)
      (n * (2 * mhTiny)) :=
  nearlyInvariant_iterate (fun t => pafsAdaptive_stochastic hD target mhTiny_nonneg h f lr mask (s t))
    (fun t => NearlyInvariant.congr
      (fun x _ y => pafsAdaptiveKernel_eq hD target mhTiny h f lr mask (s t) x y)
      ((pafs_pathMH hD (numFlips_le (s t).radius) h f lr mask).nearlyInvariant_step mhTiny_nonneg
        (isMH_mhMove _ _ _ _))) n

section categorical

variable {C : ℕ}

theorem sum_exp_pafsCategLogProb (hD : 0 < D) (hC : 0 < C) (h : ℝ → ℝ)
    (lr : (Fin D → Fin C → ℝ) → Fin D → Fin C → ℝ)
    (mask : Option (Fin D → ℝ)) (x : Fin D → Fin C → ℝ) :
    ∑ jc, Real.exp (pafsCategLogProb h lr mask x jc) = 1 := by
  have : Nonempty (Fin D × Fin C) := ⟨(⟨0, hD⟩, ⟨0, hC⟩)⟩
  exact sum_exp_logSoftmax _

/-- The true log acceptance ratio of a categorical path. -/
noncomputable def pafsCategLogAcc {k : ℕ} (hC : 0 < C) (h : ℝ → ℝ) (f : (Fin D → Fin C → ℝ) → ℝ)
    (lr : (Fin D → Fin C → ℝ) → Fin D → Fin C → ℝ) (mask : Option (Fin D → ℝ)) :
    (Fin D → ℤ) → (Fin k → Fin D) × (Fin k → Fin C) → ℝ :=
  pathLogAcc hC (fun x => f (oneHotRow C x)) fun x => pafsCategLogProb h lr mask (oneHotRow C x)

theorem pafsCategAdaptiveKernel_eq (hD : 0 < D) (hC : 0 < C) (target tiny : ℝ) (h : ℝ → ℝ)
    (f : (Fin D → Fin C → ℝ) → ℝ) (lr : (Fin D → Fin C → ℝ) → Fin D → Fin C → ℝ)
    (mask : Option (Fin D → ℝ)) (s : LBState) {x : Fin D → ℤ} (hx : x ∈ validStates C D)
    (y : Fin D → ℤ) :
    pafsCategAdaptiveKernel target tiny h C f lr mask s x y =
      lawU (pafsCategLaw (k := numFlips D s.radius) (pafsCategLogProb h lr mask (oneHotRow C x)))
        (mhMove tiny (fun x w => setVals x w.1 w.2) (pafsCategLogAcc hC h f lr mask) x) y := by
  have hs := fun x => sum_exp_pafsSite hC (sum_exp_pafsCategLogProb hD hC h lr mask x)
  have hn := numFlips_le (D := D) s.radius
  have hm : ∀ b : Fin 1, (mask.map fun m (_ : Fin 1) => m).map (· b) = mask := by
    intro b; cases mask <;> rfl
  unfold pafsCategAdaptiveKernel
  rw [lawU_push _ (fun w => (firstSites hn w.1, fun i => w.2 (firstSites hn w.1 i)))
    (f' := mhMove tiny (fun x w => setVals x w.1 w.2) (pafsCategLogAcc hC h f lr mask) x)]
  · simp only [sum_pafsCategAdaptiveLaw hC]
  · rintro ⟨σ, v⟩ u
    have hi := firstSites_injective hn σ
    have hmove := maskSet_eq hn x σ v
    have hv := setVals_valid hx (firstSites hn σ) (fun i => v (firstSites hn σ i))
    set z := setVals x (firstSites hn σ) (fun i => v (firstSites hn σ i)) with hz
    have hfwd : ∀ lp : Fin D × Fin C → ℝ, ∑ jc, Real.exp (lp jc) = 1 →
        ∑ j, (pafsLlSel (pafsSite lp) (numFlips D s.radius) σ j +
        (∑ c, oneHot C ((v j : ℕ) : ℤ) c * pafsVal lp j c) *
          (if orderMask (numFlips D s.radius) σ j then 1 else 0)) =
        Real.log (pafsCategLaw lp (firstSites hn σ, fun i => v (firstSites hn σ i))) := by
      intro lp hlp
      rw [log_pafsCategLaw hC lp (w := (firstSites hn σ, fun i => v (firstSites hn σ i))) hi,
        Finset.sum_add_distrib, sum_masked hn]
      rw [← exp_sum_pafsLlSel hn (sum_exp_pafsSite hC hlp), Real.log_exp]
      simp only [sum_oneHot]
    have hbwd : ∀ lp : Fin D × Fin C → ℝ, ∑ jc, Real.exp (lp jc) = 1 →
        pafsLlBack (pafsSite lp) (numFlips D s.radius) σ +
        ∑ j, (∑ c, oneHotRow C x j c * pafsVal lp j c) *
          (if orderMask (numFlips D s.radius) σ j then 1 else 0) =
        Real.log (pafsCategLaw lp
          (pathRev hC x (firstSites hn σ, fun i => v (firstSites hn σ i)))) := by
      intro lp hlp
      rw [log_pafsRev hC lp x (w := (firstSites hn σ, fun i => v (firstSites hn σ i))) hi,
        sum_masked hn, ← exp_pafsLlBack hn (sum_exp_pafsSite hC hlp), Real.log_exp]
      simp only [sum_oneHotRow hC hx]
    simp only [pafsCategAdaptiveStep, lbSelectCateg, hm, hmove]
    simp only [hfwd _ (sum_exp_pafsCategLogProb hD hC h lr mask (oneHotRow C x)),
      hbwd _ (sum_exp_pafsCategLogProb hD hC h lr mask (oneHotRow C z))]
    unfold mhMove
    by_cases hb : bernoulliLogp tiny u (pafsCategLogAcc hC h f lr mask x
        (firstSites hn σ, fun i => v (firstSites hn σ i)))
    · rw [if_pos hb, mhStep_accept hb, argmaxRow_oneHotRow hv]
    · rw [if_neg hb, mhStep_reject hb, argmaxRow_oneHotRow hx]

/-- C20 (categorical kernel). -/
theorem pafsCategAdaptive_stochastic (hD : 0 < D) (hC : 0 < C) (target : ℝ) {tiny : ℝ} (ht : 0 ≤ tiny)
    (h : ℝ → ℝ) (f : (Fin D → Fin C → ℝ) → ℝ) (lr : (Fin D → Fin C → ℝ) → Fin D → Fin C → ℝ)
    (mask : Option (Fin D → ℝ)) (s : LBState) :
    Stochastic (validStates C D) (pafsCategAdaptiveKernel target tiny h C f lr mask s) :=
  Stochastic.congr (fun _ hx y => pafsCategAdaptiveKernel_eq hD hC target tiny h f lr mask s hx y)
    ((path_pathMH hC (numFlips_le s.radius) (fun x => f (oneHotRow C x))
      fun x => pafsCategLogProb h lr mask (oneHotRow C x)).stochastic_step ht (isMH_mhMove _ _ _ _))

/-- C20 (categorical, ideal acceptance test): exactly reversible at any radius. -/
theorem pafsCategAdaptive_reversible (hD : 0 < D) (hC : 0 < C) (target : ℝ)
    (h : ℝ → ℝ) (f : (Fin D → Fin C → ℝ) → ℝ) (lr : (Fin D → Fin C → ℝ) → Fin D → Fin C → ℝ)
    (mask : Option (Fin D → ℝ)) (s : LBState) :
    Reversible (validStates C D) (fun x => Real.exp (f (oneHotRow C x)))
      (pafsCategAdaptiveKernel target 0 h C f lr mask s) :=
  Reversible.congr (fun _ hx y => pafsCategAdaptiveKernel_eq hD hC target 0 h f lr mask s hx y)
    ((path_pathMH hC (numFlips_le s.radius) (fun x => f (oneHotRow C x))
      fun x => pafsCategLogProb h lr mask (oneHotRow C x)).reversible_step (isMH_mhMove _ _ _ _))

/-- C20 (categorical, the code's acceptance test): at any prescribed radii, `n` steps move the target by
at most `n · 2e-24` of its mass. -/
theorem pafsCategAdaptive_nearlyInvariant_run (hD : 0 < D) (hC : 0 < C) (target : ℝ)
    (h : ℝ → ℝ) (f : (Fin D → Fin C → ℝ) → ℝ) (lr : (Fin D → Fin C → ℝ) → Fin D → Fin C → ℝ)
    (mask : Option (Fin D → ℝ)) (s : ℕ → LBState) (n : ℕ) :
    NearlyInvariant (validStates C D) (fun x => Real.exp (f (oneHotRow C x)))
      (iterate (validStates C D)
        (fun t => pafsCategAdaptiveKernel target mhTiny h C f lr mask (s t)) n) (n * (2 * mhTiny)) :=
  nearlyInvariant_iterate
    (fun t => pafsCategAdaptive_stochastic hD hC target mhTiny_nonneg h f lr mask (s t))
    (fun t => NearlyInvariant.congr
      (fun _ hx y => pafsCategAdaptiveKernel_eq hD hC target mhTiny h f lr mask (s t) hx y)
      ((path_pathMH hC (numFlips_le (s t).radius) (fun x => f (oneHotRow C x))
        fun x => pafsCategLogProb h lr mask (oneHotRow C x)).nearlyInvariant_step mhTiny_nonneg
        (isMH_mhMove _ _ _ _))) n

/-- Instance for C20: the order 2, 0, 1 of three sites with two flips selects sites 2 and 0; new values
come from the drawn vector at those sites only. -/
example : ∃ σ : Equiv.Perm (Fin 3), σ 0 = 2 ∧ σ 1 = 0 ∧ σ 2 = 1 ∧
    maskSet (C := 3) ![0, 1, 2] (orderMask 2 σ) ![1, 0, 0] = ![1, 1, 0] := by decide

/-! ## C21: categorical, fixed number of flips

The forward log-likelihood of the proposal leaves out the probability of the new values, while the
backward one contains it.  The first theorem says exactly what the step does; the second one that it
does not preserve the target. -/

/-- C21, what holds: the kernel is the path Metropolis–Hastings kernel whose log acceptance ratio has
the log-probability of the drawn values added to the true ratio.  Missing for the full claim: that
added term, which is negative, would have to vanish. -/
theorem pafsCateg_kernel_partial (hD : 0 < D) (hC : 0 < C) (k : ℕ) (tiny : ℝ) (h : ℝ → ℝ)
    (f : (Fin D → Fin C → ℝ) → ℝ) (lr : (Fin D → Fin C → ℝ) → Fin D → Fin C → ℝ)
    (mask : Option (Fin D → ℝ)) (s : LBState) {x : Fin D → ℤ} (hx : x ∈ validStates C D)
    (y : Fin D → ℤ) :
    pafsCategKernel k tiny h C f lr mask s x y =
      lawU (pafsCategLaw (k := k) (pafsCategLogProb h lr mask (oneHotRow C x)))
        (mhMove tiny (fun x w => setVals x w.1 w.2) (fun x w => pafsCategLogAcc hC h f lr mask x w +
          ∑ i, pafsVal (pafsCategLogProb h lr mask (oneHotRow C x)) (w.1 i) (w.2 i)) x) y := by
  have hm : ∀ b : Fin 1, (mask.map fun m (_ : Fin 1) => m).map (· b) = mask := by
    intro b; cases mask <;> rfl
  unfold pafsCategKernel
  unfold lawU
  refine Finset.sum_congr rfl fun w _ => ?_
  by_cases hq : pafsCategLaw (pafsCategLogProb h lr mask (oneHotRow C x)) w = 0
  · rw [hq, zero_mul, zero_mul]
  congr 4
  ext u
  have hi := pafsCategLaw_ne_zero hq
  have hv := setVals_valid hx w.1 w.2
  set z := setVals x w.1 w.2 with hz
  have hfwd : ∀ lp : Fin D × Fin C → ℝ, ∑ jc, Real.exp (lp jc) = 1 →
      pafsLlIdx (pafsSite lp) w.1 = Real.log (pafsCategLaw lp w) - ∑ i, pafsVal lp (w.1 i) (w.2 i) := by
    intro lp hlp
    rw [log_pafsCategLaw hC lp hi, ← exp_pafsLlIdx (sum_exp_pafsSite hC hlp) hi, Real.log_exp]; ring
  have hbwd : ∀ lp : Fin D × Fin C → ℝ, ∑ jc, Real.exp (lp jc) = 1 →
      pafsLlRev (pafsSite lp) w.1 +
        ∑ i : Fin k, ∑ c, oneHotRow C x (w.1 i.rev) c * pafsVal lp (w.1 i.rev) c =
      Real.log (pafsCategLaw lp (pathRev hC x w)) := by
    intro lp hlp
    rw [log_pafsRev hC lp x hi, ← exp_pafsLlRev (sum_exp_pafsSite hC hlp) hi, Real.log_exp]
    congr 1
    simp only [sum_oneHotRow hC hx]
    rw [← Equiv.sum_comp Fin.revPerm]
    simp
  have hstep : (pafsCategStep tiny 4 h C f lr (mask.map fun m (_ : Fin 1) => m) (fun _ => x)
      (fun _ => w.1) (fun _ => w.2) (fun _ => u) s).1 0 =
      mhMove tiny (fun x w => setVals x w.1 w.2) (fun x w => pafsCategLogAcc hC h f lr mask x w +
          ∑ i, pafsVal (pafsCategLogProb h lr mask (oneHotRow C x)) (w.1 i) (w.2 i)) x w u := by
    simp only [pafsCategStep, lbSelectCateg, hm]
    simp only [hfwd _ (sum_exp_pafsCategLogProb hD hC h lr mask (oneHotRow C x)),
      hbwd _ (sum_exp_pafsCategLogProb hD hC h lr mask (oneHotRow C (setVals x w.1 w.2)))]
    have hl : f (oneHotRow C (setVals x w.1 w.2)) + Real.log (pafsCategLaw
        (pafsCategLogProb h lr mask (oneHotRow C (setVals x w.1 w.2))) (pathRev hC x w)) -
        f (oneHotRow C x) - (Real.log (pafsCategLaw (pafsCategLogProb h lr mask (oneHotRow C x)) w) -
        ∑ i, pafsVal (pafsCategLogProb h lr mask (oneHotRow C x)) (w.1 i) (w.2 i)) =
        pafsCategLogAcc hC h f lr mask x w +
          ∑ i, pafsVal (pafsCategLogProb h lr mask (oneHotRow C x)) (w.1 i) (w.2 i) := by
      unfold pafsCategLogAcc pathLogAcc; ring
    simp only [hl]
    unfold mhMove
    dsimp only
    by_cases hb : bernoulliLogp tiny u (pafsCategLogAcc hC h f lr mask x w +
          ∑ i, pafsVal (pafsCategLogProb h lr mask (oneHotRow C x)) (w.1 i) (w.2 i))
    · rw [if_pos hb, mhStep_accept hb, argmaxRow_oneHotRow hv]
    · rw [if_neg hb, mhStep_reject hb, argmaxRow_oneHotRow hx]
  exact iff_of_eq (congrArg (fun z => u ∈ Set.Ico (0 : ℝ) 1 ∧ z = y) hstep)

/-- C21, what holds: the step is a probability kernel on valid samples. -/
theorem pafsCateg_stochastic_partial (hD : 0 < D) (hC : 0 < C) {k : ℕ} (hk : k ≤ D) {tiny : ℝ}
    (ht : 0 ≤ tiny) (h : ℝ → ℝ) (f : (Fin D → Fin C → ℝ) → ℝ)
    (lr : (Fin D → Fin C → ℝ) → Fin D → Fin C → ℝ) (mask : Option (Fin D → ℝ)) (s : LBState) :
    Stochastic (validStates C D) (pafsCategKernel k tiny h C f lr mask s) := by
  classical
  refine Stochastic.congr (fun x hx y => (pafsCateg_kernel_partial hD hC k tiny h f lr mask s hx y).trans
    ((isMH_mhMove (validStates C D) tiny _ _).lawU_eq ht
      (fun x => pafsCategLaw (k := k) (pafsCategLogProb h lr mask (oneHotRow C x))) x hx y))
    (stochastic_mhKernel (fun x _ => isProb_pafsCategLaw hC hk _) (fun x hx w _ => setVals_valid hx _ _)
    (fun _ _ => acceptProb_nonneg _ _) (fun _ _ => acceptProb_le_one _ _))

end categorical

/-! ### The witness: one site, three categories, weights 1, 4, 4 -/

/-- Log-likelihood with weights 1, 4, 4 of the three categories; its gradient is `witA`. -/
noncomputable def witA : Fin 3 → ℝ := ![0, Real.log 4, Real.log 4]

noncomputable def witF (x : Fin 1 → Fin 3 → ℝ) : ℝ := ∑ c, witA c * x 0 c

/-- The gradient-based local scores of `witF` (`path_auxiliary.py:72-74`). -/
noncomputable def witR (x : Fin 1 → Fin 3 → ℝ) (_ : Fin 1) (c : Fin 3) : ℝ :=
  witA c - ∑ c', witA c' * x 0 c'

noncomputable def witLp (a : Fin 3) : Fin 1 × Fin 3 → ℝ :=
  pafsCategLogProb (· / 2) witR none (oneHotRow 3 fun _ => ((a : ℕ) : ℤ))

/-- The local logits at category `a`. -/
noncomputable def witL (a c : Fin 3) : ℝ := if c = a then -1e9 else (witA c - witA a) / 2

theorem witLp_eq (a : Fin 3) : witLp a = logSoftmax fun jc => witL a jc.2 := by
  unfold witLp pafsCategLogProb
  congr 1
  funext jc
  unfold witL applyMask witR
  have hs : ∑ c', witA c' * oneHotRow 3 (fun _ : Fin 1 => ((a : ℕ) : ℤ)) 0 c' = witA a := by
    have := sum_oneHot a witA
    unfold oneHotRow
    rw [← this]
    exact Finset.sum_congr rfl fun c _ => mul_comm _ _
  simp only [Option.map_none, hs]
  by_cases hc : jc.2 = a
  · have e : oneHotRow 3 (fun _ : Fin 1 => ((a : ℕ) : ℤ)) jc.1 jc.2 = 1 := by
      simp [oneHotRow, oneHot, hc]
    rw [e, if_pos hc]; ring
  · have e : oneHotRow 3 (fun _ : Fin 1 => ((a : ℕ) : ℤ)) jc.1 jc.2 = 0 := by
      have h2 : ¬ (jc.2 : ℕ) = (a : ℕ) := fun h => hc (Fin.ext h)
      simp [oneHotRow, oneHot, h2]
    rw [e, if_neg hc]; ring

/-- Probability of each new category. -/
noncomputable def witV (a c : Fin 3) : ℝ := Real.exp (witL a c) / ∑ c', Real.exp (witL a c')

theorem softmax_shift {I : Type*} [Fintype I] (l : I → ℝ) (t : ℝ) (i : I) :
    softmax (fun i => l i - t) i = softmax l i := by
  unfold softmax
  simp only [Real.exp_sub]
  rw [← Finset.sum_div, div_div_div_cancel_right₀ (Real.exp_pos t).ne']

theorem softmax_witVal (a : Fin 3) (j : Fin 1) (c : Fin 3) :
    softmax (pafsVal (witLp a) j) c = witV a c := by
  unfold pafsVal
  rw [softmax_logSoftmax, witLp_eq]
  exact softmax_shift (witL a) _ c

theorem witLaw (a : Fin 3) (w : (Fin 1 → Fin 1) × (Fin 1 → Fin 3)) :
    pafsCategLaw (witLp a) w = witV a (w.2 0) := by
  have h1 : pafsIdxLaw (pafsSite (witLp a)) w.1 = 1 := by
    unfold pafsIdxLaw
    rw [List.ofFn_succ, List.ofFn_zero]
    simp only [seqDraw, notMem_empty, if_false, mul_one]
    rw [Finset.sdiff_empty, Fin.sum_univ_one, Subsingleton.elim (w.1 0) 0]
    exact div_self (Real.exp_pos _).ne'
  unfold pafsCategLaw
  rw [h1, one_mul, Fin.prod_univ_one, softmax_witVal]

theorem exp_log4_half : Real.exp (Real.log 4 / 2) = 2 := by
  have : Real.log 4 / 2 = Real.log 2 := by
    have : (4 : ℝ) = 2 ^ 2 := by norm_num
    rw [this, Real.log_pow]; push_cast; ring
  rw [this, Real.exp_log (by norm_num)]

theorem exp_neg_log4_half : Real.exp (-(Real.log 4) / 2) = 1 / 2 := by
  rw [neg_div, Real.exp_neg, exp_log4_half]; norm_num

theorem exp_mask_small : Real.exp (-1e9) ≤ 1 / 100 := by
  have h : (100 : ℝ) ≤ Real.exp 1e9 := by
    have := Real.add_one_le_exp (1e9 : ℝ)
    linarith
  rw [Real.exp_neg, ← one_div]
  exact one_div_le_one_div_of_le (by norm_num) h

theorem witV_vals : (∀ c : Fin 3, c ≠ 0 → witV 0 c = 2 / (4 + Real.exp (-1e9))) ∧
    (∀ a : Fin 3, a ≠ 0 → witV a 0 = (1 / 2) / (3 / 2 + Real.exp (-1e9))) := by
  have e0 : Real.exp ((Real.log 4 - Real.log 4) / 2) = 1 := by simp
  have e1 := exp_log4_half
  have e2 := exp_neg_log4_half
  refine ⟨fun c hc => ?_, fun a ha => ?_⟩
  · unfold witV
    rw [Fin.sum_univ_three]
    fin_cases c
    · exact absurd rfl hc
    · simp only [witL, witA]
      simp [e1]
      congr 1; ring
    · simp only [witL, witA]
      simp [e1]
      congr 1; ring
  · unfold witV
    rw [Fin.sum_univ_three]
    fin_cases a
    · exact absurd rfl ha
    · simp only [witL, witA]
      simp
      rw [e2]
      congr 1
      · norm_num
      · norm_num; try ring
    · simp only [witL, witA]
      simp
      rw [e2]
      congr 1
      · norm_num
      · norm_num; try ring

theorem witF_oneHot (a : Fin 3) : witF (oneHotRow 3 fun _ => ((a : ℕ) : ℤ)) = witA a := by
  unfold witF
  rw [← sum_oneHot a witA]
  exact Finset.sum_congr rfl fun c _ => mul_comm _ _

theorem witPi (a : Fin 3) : Real.exp (witF (oneHotRow 3 fun _ => ((a : ℕ) : ℤ))) =
    if a = 0 then 1 else 4 := by
  rw [witF_oneHot]
  fin_cases a
  · simp [witA]
  · simp [witA, Real.exp_log]
  · simp [witA, Real.exp_log]

/-- Transition probability between different categories of the witness. -/
theorem wit_kernel (tiny : ℝ) (ht : 0 ≤ tiny) (s : LBState) {a c : Fin 3} (hac : a ≠ c) :
    pafsCategKernel 1 tiny (· / 2) 3 witF witR none s (fun _ => ((a : ℕ) : ℤ)) (fun _ => ((c : ℕ) : ℤ)) =
      witV a c * acceptProb tiny (witA c - witA a + Real.log (witV c a)) := by
  classical
  have hv : ∀ a : Fin 3, (fun _ : Fin 1 => ((a : ℕ) : ℤ)) ∈ validStates 3 1 := by
    intro a; rw [mem_validStates]; intro j
    exact ⟨by positivity, by exact_mod_cast a.2⟩
  rw [pafsCateg_kernel_partial one_pos (by norm_num) 1 tiny _ _ _ _ s (hv a)]
  rw [(isMH_mhMove (validStates 3 1) tiny _ _).lawU_eq ht (fun x => pafsCategLaw
    (pafsCategLogProb (· / 2) witR none (oneHotRow 3 x))) _ (hv a)]
  unfold mhKernel
  have hne : (fun _ : Fin 1 => ((a : ℕ) : ℤ)) ≠ fun _ => ((c : ℕ) : ℤ) := by
    intro h; exact hac (Fin.ext (by exact_mod_cast congrFun h 0))
  have hmove : ∀ w : (Fin 1 → Fin 1) × (Fin 1 → Fin 3),
      setVals (fun _ => ((a : ℕ) : ℤ)) w.1 w.2 = fun _ => ((w.2 0 : ℕ) : ℤ) := by
    intro w; funext j
    have : j = w.1 0 := Subsingleton.elim _ _
    rw [this, setVals_sel _ (Function.injective_of_subsingleton _)]
  rw [Finset.sum_eq_single ((fun _ => 0, fun _ => c) : (Fin 1 → Fin 1) × (Fin 1 → Fin 3))]
  · rw [if_neg hne, add_zero]
    dsimp only
    rw [if_pos (hmove (fun _ => 0, fun _ => c))]
    have hl := witLaw a (fun _ => 0, fun _ => c)
    change pafsCategLaw (witLp a) _ * acceptProb tiny (pafsCategLogAcc _ _ _ _ _ _ _ +
      ∑ i, pafsVal (witLp a) _ _) = _
    rw [hl]
    congr 2
    unfold pafsCategLogAcc pathLogAcc
    dsimp only
    rw [hmove (fun _ => 0, fun _ => c)]
    dsimp only
    rw [witF_oneHot, witF_oneHot]
    change witA c + Real.log (pafsCategLaw (witLp c) _) - witA a -
      Real.log (pafsCategLaw (witLp a) _) + _ = _
    rw [witLaw, witLaw, Fin.sum_univ_one]
    have e1 : pafsVal (witLp a) 0 c = Real.log (witV a c) := by
      rw [← softmax_witVal a 0 c, ← exp_pafsVal (by norm_num), Real.log_exp]
    rw [e1]
    have e2 : (pathRev (C := 3) (by norm_num) (fun _ : Fin 1 => ((a : ℕ) : ℤ))
        ((fun _ => 0, fun _ => c) : (Fin 1 → Fin 1) × (Fin 1 → Fin 3))).2 0 = a := by
      ext
      show (((a : ℕ) : ℤ)).toNat % 3 = a
      rw [Int.toNat_natCast, Nat.mod_eq_of_lt a.2]
    rw [e2]
    ring
  · intro w _ hw
    rw [if_neg hne, add_zero, if_neg, mul_zero]
    intro h
    apply hw
    have h : setVals (fun _ => ((a : ℕ) : ℤ)) w.1 w.2 = fun _ => ((c : ℕ) : ℤ) := h
    rw [hmove] at h
    refine Prod.ext (funext fun i => Subsingleton.elim _ _) (funext fun i => ?_)
    rw [Subsingleton.elim i 0]
    exact Fin.ext (by exact_mod_cast congrFun h 0)
  · intro h; exact absurd (mem_univ _) h

/-- C21 is false of the code: on one site with three categories of weights 1, 4, 4, exact gradients and
the square-root balancing function, one step moves the target by more than a twentieth of its mass
(with the ideal acceptance test and with the code's). -/
theorem pafsCateg_not_invariant (tiny : ℝ) (h0 : 0 ≤ tiny) (h1 : tiny ≤ 1 / 100) (s : LBState) :
    ¬ NearlyInvariant (validStates 3 1) (fun x => Real.exp (witF (oneHotRow 3 x)))
      (pafsCategKernel 1 tiny (· / 2) 3 witF witR none s) (1 / 20) := by
  intro hinv
  have hS := pafsCateg_stochastic_partial one_pos (C := 3) (by norm_num) le_rfl h0 (· / 2) witF witR
    none s (k := 1)
  set K := pafsCategKernel 1 tiny (· / 2) 3 witF witR none s with hK
  set e : Fin 3 → (Fin 1 → ℤ) := fun a _ => ((a : ℕ) : ℤ) with he
  have hv : ∀ a : Fin 3, e a ∈ validStates 3 1 := by
    intro a; rw [mem_validStates]; intro j
    have := a.2
    exact ⟨by positivity, by simp only [he]; exact_mod_cast a.2⟩
  have hinj : Function.Injective e := by
    intro a b h
    have : ((a : ℕ) : ℤ) = ((b : ℕ) : ℤ) := congrFun h 0
    exact Fin.ext (by exact_mod_cast this)
  have hset : validStates 3 1 = univ.map ⟨e, hinj⟩ := by
    ext x
    rw [mem_map]
    constructor
    · intro hx
      rw [mem_validStates] at hx
      refine ⟨⟨(x 0).toNat, by have := hx 0; omega⟩, mem_univ _, ?_⟩
      funext j
      have := hx 0
      rw [Subsingleton.elim j 0]
      show (((x 0).toNat : ℕ) : ℤ) = x 0
      omega
    · rintro ⟨a, _, rfl⟩; exact hv a
  have hsum : ∀ F : (Fin 1 → ℤ) → ℝ, ∑ x ∈ validStates 3 1, F x = F (e 0) + F (e 1) + F (e 2) := by
    intro F; rw [hset, Finset.sum_map, Fin.sum_univ_three]; rfl
  unfold NearlyInvariant at hinv
  simp only [hsum] at hinv
  have hp : ∀ a, Real.exp (witF (oneHotRow 3 (e a))) = if a = 0 then 1 else 4 := witPi
  simp only [hp] at hinv
  have hrow := hS.2.1 (e 0) (hv 0)
  rw [hsum] at hrow
  obtain ⟨v0, v1⟩ := witV_vals
  have hε0 := Real.exp_pos (-1e9)
  have hε := exp_mask_small
  set ε := Real.exp (-1e9)
  have hk0 : ∀ c : Fin 3, c ≠ 0 → 0.48 ≤ K (e 0) (e c) := by
    intro c hc
    have hw := wit_kernel tiny h0 s (a := 0) (c := c) (Ne.symm hc)
    rw [hK, hw, v0 c hc, v1 c hc]
    have hA : witA c - witA 0 = Real.log 4 := by
      fin_cases c
      · exact absurd rfl hc
      · simp [witA]
      · simp [witA]
    have hacc : 0.99 ≤ acceptProb tiny (witA c - witA 0 + Real.log (1 / 2 / (3 / 2 + ε))) := by
      unfold acceptProb
      rw [hA, Real.exp_add, Real.exp_log (by norm_num), Real.exp_log (by positivity)]
      refine le_max_of_le_right (le_min (by norm_num) ?_)
      have : 1 ≤ 4 * (1 / 2 / (3 / 2 + ε)) := by
        rw [div_div, mul_one_div, le_div_iff₀ (by positivity)]; linarith
      linarith
    have hv2 : 0.49 ≤ 2 / (4 + ε) := by
      rw [le_div_iff₀ (by positivity)]; linarith
    nlinarith
  have hk1 : ∀ a : Fin 3, a ≠ 0 → K (e a) (e 0) ≤ 1 / 24 := by
    intro a ha
    have hw := wit_kernel tiny h0 s (a := a) (c := 0) ha
    rw [hK, hw, v0 a ha, v1 a ha]
    have hA : witA 0 - witA a = - Real.log 4 := by
      fin_cases a
      · exact absurd rfl ha
      · simp [witA]
      · simp [witA]
    have hv2 : 2 / (4 + ε) ≤ 1 / 2 := by
      rw [div_le_iff₀ (by positivity)]; linarith
    have hacc : acceptProb tiny (witA 0 - witA a + Real.log (2 / (4 + ε))) ≤ 1 / 8 := by
      unfold acceptProb
      rw [hA, Real.exp_add, Real.exp_neg, Real.exp_log (by norm_num), Real.exp_log (by positivity)]
      refine max_le (by norm_num) ((min_le_right _ _).trans ?_)
      linarith
    have hv1 : 1 / 2 / (3 / 2 + ε) ≤ 1 / 3 := by
      rw [div_le_iff₀ (by positivity)]; linarith
    have := acceptProb_nonneg tiny (witA 0 - witA a + Real.log (2 / (4 + ε)))
    have : 0 ≤ 1 / 2 / (3 / 2 + ε) := by positivity
    nlinarith
  have a1 := hk0 1 (by decide)
  have a2 := hk0 2 (by decide)
  have b1 := hk1 1 (by decide)
  have b2 := hk1 2 (by decide)
  simp only [if_true, show (1 : Fin 3) ≠ 0 by decide, show (2 : Fin 3) ≠ 0 by decide, if_false,
    one_mul] at hinv
  have t0 := neg_abs_le (K (e 0) (e 0) + 4 * K (e 1) (e 0) + 4 * K (e 2) (e 0) - 1)
  have t1 := abs_nonneg (K (e 0) (e 1) + 4 * K (e 1) (e 1) + 4 * K (e 2) (e 1) - 4)
  have t2 := abs_nonneg (K (e 0) (e 2) + 4 * K (e 1) (e 2) + 4 * K (e 2) (e 2) - 4)
  linarith

end Discs
