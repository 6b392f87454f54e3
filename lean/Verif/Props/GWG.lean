import Verif.Model.GWG
import Verif.Props.LocallyBalanced
import Verif.Props.MathUtil

/-!
# Properties C15, C16, C17: Gibbs with gradients
-/

namespace Discs

open Finset Spec

variable {D : ℕ}

/-! ## C15: binary GWG -/

theorem gwgPropose_valid {k : ℕ} {x : Fin D → ℤ} (hx : x ∈ validStates 2 D) (idx : Fin k → Fin D) :
    gwgPropose x idx ∈ validStates 2 D := by
  rw [mem_validStates_two] at *
  intro j
  unfold gwgPropose
  have := hx j
  split_ifs <;> omega

theorem gwgPropose_back {k : ℕ} (x : Fin D → ℤ) (idx : Fin k → Fin D) :
    gwgPropose (gwgPropose x idx) idx = x := by
  funext j
  unfold gwgPropose
  split_ifs <;> ring

theorem isProb_iid {I : Type*} [Fintype I] {k : ℕ} {p : I → ℝ} (hp : IsProb p) :
    IsProb fun idx : Fin k → I => ∏ i, p (idx i) := by
  classical
  refine ⟨fun idx => Finset.prod_nonneg fun i _ => hp.1 _, ?_⟩
  have := Fintype.prod_sum (f := fun (_ : Fin k) (j : I) => p j)
  rw [← this, hp.2, Finset.prod_const_one]

theorem softmax_gwgDist [Nonempty (Fin D)] (h : ℝ → ℝ) (mask : Option (Fin D → ℝ)) (x : Fin D → ℤ)
    (gr : Fin D → ℝ) (j : Fin D) :
    softmax (gwgDist h mask x gr) j = Real.exp (gwgDist h mask x gr j) := by
  unfold gwgDist
  rw [softmax_logSoftmax, exp_logSoftmax]

/-- Log acceptance ratio of the binary sampler for one chain. -/
noncomputable def gwgLogAcc {k : ℕ} (h : ℝ → ℝ) (f : (Fin D → ℤ) → ℝ) (g : (Fin D → ℤ) → Fin D → ℝ)
    (mask : Option (Fin D → ℝ)) (x : Fin D → ℤ) (idx : Fin k → Fin D) : ℝ :=
  f (gwgPropose x idx) + gwgLl (gwgDist h mask (gwgPropose x idx) (g (gwgPropose x idx))) idx - f x -
    gwgLl (gwgDist h mask x (g x)) idx

theorem gwg_pathMH (hD : 0 < D) (k : ℕ) (h : ℝ → ℝ) (f : (Fin D → ℤ) → ℝ)
    (g : (Fin D → ℤ) → Fin D → ℝ) (mask : Option (Fin D → ℝ)) :
    PathMH (validStates 2 D) (fun x => Real.exp (f x)) (gwgDrawLaw (k := k) h g mask) gwgPropose
      (fun _ idx => idx) (gwgLogAcc h f g mask) := by
  have : Nonempty (Fin D) := ⟨⟨0, hD⟩⟩
  have hq : ∀ x (idx : Fin k → Fin D), gwgDrawLaw h g mask x idx =
      Real.exp (gwgLl (gwgDist h mask x (g x)) idx) := by
    intro x idx
    unfold gwgDrawLaw gwgLl
    rw [Real.exp_sum]
    exact Finset.prod_congr rfl fun i _ => softmax_gwgDist _ _ _ _ _
  exact {
    pi_pos := fun _ _ => Real.exp_pos _
    prob := fun _ _ => isProb_iid (isProb_softmax _)
    closed := fun x hx idx _ => gwgPropose_valid hx idx
    back := fun x _ idx _ _ => gwgPropose_back x idx
    invol := fun _ _ _ _ _ => rfl
    ratio := fun x _ idx _ _ => by
      rw [hq, hq, ← Real.exp_add, ← Real.exp_add, ← Real.exp_add]
      congr 1
      unfold gwgLogAcc; ring
    antisymm := fun x _ idx _ _ => by
      unfold gwgLogAcc
      rw [gwgPropose_back]; ring }

theorem gwg_isMH (k : ℕ) (tiny : ℝ) (h : ℝ → ℝ) (f : (Fin D → ℤ) → ℝ)
    (g : (Fin D → ℤ) → Fin D → ℝ) (mask : Option (Fin D → ℝ)) (s : LBState) :
    IsMHStep (validStates 2 D) tiny (gwgPropose (k := k)) (gwgLogAcc h f g mask) (fun x idx u =>
      (gwgBinaryStep tiny h f g (mask.map fun m (_ : Fin 1) => m) (fun _ : Fin 1 => x)
        (fun _ => idx) (fun _ => u) s).1 0) := by
  have hm : ∀ b : Fin 1, (mask.map fun m (_ : Fin 1) => m).map (· b) = mask := by
    intro b; cases mask <;> rfl
  constructor
  · intro x _ idx u hacc
    simp only [gwgBinaryStep, lbSelectBinary, hm]
    rw [mhStep_accept hacc]
  · intro x _ idx u hrej
    simp only [gwgBinaryStep, lbSelectBinary, hm]
    rw [mhStep_reject hrej]

/-- C15 (kernel): the binary GWG step is a probability kernel on binary samples. -/
theorem gwg_stochastic (hD : 0 < D) (k : ℕ) {tiny : ℝ} (ht : 0 ≤ tiny) (h : ℝ → ℝ)
    (f : (Fin D → ℤ) → ℝ) (g : (Fin D → ℤ) → Fin D → ℝ) (mask : Option (Fin D → ℝ)) (s : LBState) :
    Stochastic (validStates 2 D) (gwgBinaryKernel k tiny h f g mask s) :=
  (gwg_pathMH hD k h f g mask).stochastic_step ht (gwg_isMH k tiny h f g mask s)

/-- C15 (ideal acceptance test): exactly reversible, whatever the gradient, balancing function, mask
and number of flips. -/
theorem gwg_reversible (hD : 0 < D) (k : ℕ) (h : ℝ → ℝ) (f : (Fin D → ℤ) → ℝ)
    (g : (Fin D → ℤ) → Fin D → ℝ) (mask : Option (Fin D → ℝ)) (s : LBState) :
    Reversible (validStates 2 D) (fun x => Real.exp (f x)) (gwgBinaryKernel k 0 h f g mask s) :=
  (gwg_pathMH hD k h f g mask).reversible_step (gwg_isMH k 0 h f g mask s)

/-- C15 (the code's acceptance test): `n` steps move the target by at most `n · 2e-24` of its mass. -/
theorem gwg_nearlyInvariant_run (hD : 0 < D) (k : ℕ) (h : ℝ → ℝ) (f : (Fin D → ℤ) → ℝ)
    (g : (Fin D → ℤ) → Fin D → ℝ) (mask : Option (Fin D → ℝ)) (s : ℕ → LBState) (n : ℕ) :
    NearlyInvariant (validStates 2 D) (fun x => Real.exp (f x))
      (iterate (validStates 2 D) (fun t => gwgBinaryKernel k mhTiny h f g mask (s t)) n)
      (n * (2 * mhTiny)) :=
  nearlyInvariant_iterate (fun t => gwg_stochastic hD k mhTiny_nonneg h f g mask (s t))
    (fun t => (gwg_pathMH hD k h f g mask).nearlyInvariant_step mhTiny_nonneg
      (gwg_isMH k mhTiny h f g mask (s t))) n

/-- Instance for C15: three sites, indices 1, 1, 2: sites 1 and 2 flip once each. -/
example : gwgPropose ![0, 1, 0] ![1, 1, 2] = ![0, 0, 1] ∧
    (![0, 1, 0] : Fin 3 → ℤ) ∈ validStates 2 3 := by
  refine ⟨by decide, ?_⟩
  rw [mem_validStates]; decide

/-! ## C16: adaptive GWG -/

theorem gwgSelected_eq {ns : ℕ} (hns : 0 < ns) (idx : Fin ns → Fin D) (c : Fin D) :
    gwgSelected hns idx c = (univ.filter fun i => idx i = c).card := by
  unfold gwgSelected
  rw [multinomialCounts_eq]
  simp only [Nat.div_one]
  refine Finset.card_bij' (fun k hk => ⟨k, by simp at hk; exact hk.1⟩) (fun i _ => (i : ℕ)) ?_ ?_ ?_ ?_
  · intro k hk
    simp only [mem_filter, mem_range] at hk
    simp only [mem_filter, mem_univ, true_and]
    have := hk.2
    rwa [dif_pos hk.1] at this
  · intro i hi
    simp only [mem_filter, mem_univ, true_and] at hi
    simp only [mem_filter, mem_range]
    exact ⟨i.2, by rw [dif_pos i.2]; exact hi⟩
  · intro k _; rfl
  · intro i _; rfl

theorem gwgProposeAdaptive_eq {ns : ℕ} (hns : 0 < ns) (x : Fin D → ℤ) (idx : Fin ns → Fin D) :
    gwgProposeAdaptive x (gwgSelected hns idx) = gwgPropose x idx := by
  funext j
  have hiff : gwgSelected hns idx j > 0 ↔ ∃ i, idx i = j := by
    rw [gwgSelected_eq, gt_iff_lt, Finset.card_pos]
    exact ⟨fun ⟨i, hi⟩ => ⟨i, (mem_filter.1 hi).2⟩, fun ⟨i, hi⟩ => ⟨i, mem_filter.2 ⟨mem_univ _, hi⟩⟩⟩
  unfold gwgProposeAdaptive gwgPropose
  by_cases h : ∃ i, idx i = j
  · rw [if_pos h]; simp only [hiff.2 h, if_true]; ring
  · rw [if_neg h]; simp only [mt hiff.1 h, if_false]; ring

theorem gwgLlAdaptive_eq {ns : ℕ} (hns : 0 < ns) (dist : Fin D → ℝ) (idx : Fin ns → Fin D) :
    gwgLlAdaptive dist (gwgSelected hns idx) = gwgLl dist idx := by
  unfold gwgLlAdaptive gwgLl
  simp only [gwgSelected_eq, Finset.card_filter, Nat.cast_sum, Finset.mul_sum]
  rw [Finset.sum_comm]
  refine Finset.sum_congr rfl fun i _ => ?_
  simp

theorem gwgAdaptive_isMH (hD : 0 < D) (target tiny : ℝ) (h : ℝ → ℝ) (f : (Fin D → ℤ) → ℝ)
    (g : (Fin D → ℤ) → Fin D → ℝ) (mask : Option (Fin D → ℝ)) (s : LBState) :
    IsMHStep (validStates 2 D) tiny (gwgPropose (k := numFlips D s.radius)) (gwgLogAcc h f g mask)
      (fun x idx u => (gwgAdaptiveStep hD target tiny h f g (mask.map fun m (_ : Fin 1) => m)
        (fun _ : Fin 1 => x) s (fun _ => idx) (fun _ => u)).1 0) := by
  have hm : ∀ b : Fin 1, (mask.map fun m (_ : Fin 1) => m).map (· b) = mask := by
    intro b; cases mask <;> rfl
  constructor
  · intro x _ idx u hacc
    simp only [gwgAdaptiveStep, lbSelectBinary, hm, gwgProposeAdaptive_eq, gwgLlAdaptive_eq]
    rw [mhStep_accept hacc]
  · intro x _ idx u hrej
    simp only [gwgAdaptiveStep, lbSelectBinary, hm, gwgProposeAdaptive_eq, gwgLlAdaptive_eq]
    rw [mhStep_reject hrej]

/-- C16 (kernel). -/
theorem gwgAdaptive_stochastic (hD : 0 < D) (target : ℝ) {tiny : ℝ} (ht : 0 ≤ tiny) (h : ℝ → ℝ)
    (f : (Fin D → ℤ) → ℝ) (g : (Fin D → ℤ) → Fin D → ℝ) (mask : Option (Fin D → ℝ)) (s : LBState) :
    Stochastic (validStates 2 D) (gwgAdaptiveKernel hD target tiny h f g mask s) :=
  (gwg_pathMH hD _ h f g mask).stochastic_step ht (gwgAdaptive_isMH hD target tiny h f g mask s)

/-- C16 (ideal acceptance test): at any radius the adaptive GWG step is exactly reversible. -/
theorem gwgAdaptive_reversible (hD : 0 < D) (target : ℝ) (h : ℝ → ℝ) (f : (Fin D → ℤ) → ℝ)
    (g : (Fin D → ℤ) → Fin D → ℝ) (mask : Option (Fin D → ℝ)) (s : LBState) :
    Reversible (validStates 2 D) (fun x => Real.exp (f x))
      (gwgAdaptiveKernel hD target 0 h f g mask s) :=
  (gwg_pathMH hD _ h f g mask).reversible_step (gwgAdaptive_isMH hD target 0 h f g mask s)

/-- C16 (the code's acceptance test): at any prescribed sequence of radii, `n` steps move the target by
at most `n · 2e-24` of its mass. -/
theorem gwgAdaptive_nearlyInvariant_run (hD : 0 < D) (target : ℝ) (h : ℝ → ℝ)
    (f : (Fin D → ℤ) → ℝ) (g : (Fin D → ℤ) → Fin D → ℝ) (mask : Option (Fin D → ℝ))
    (s : ℕ → LBState) (n : ℕ) :
    NearlyInvariant (validStates 2 D) (fun x => Real.exp (f x))
      (iterate (validStates 2 D) (fun t => gwgAdaptiveKernel hD target mhTiny h f g mask (s t)) n)
      (n * (2 * mhTiny)) :=
  nearlyInvariant_iterate (fun t => gwgAdaptive_stochastic hD target mhTiny_nonneg h f g mask (s t))
    (fun t => (gwg_pathMH hD _ h f g mask).nearlyInvariant_step mhTiny_nonneg
      (gwgAdaptive_isMH hD target mhTiny h f g mask (s t))) n

/-- Instance for C16: radius `5/2` rounds to two draws (ties to even). -/
example : numFlips 3 (5 / 2) = 2 := by
  have h : ⌊(5 / 2 : ℝ)⌋ = 2 := by norm_num [Int.floor_eq_iff]
  unfold numFlips roundHalfEven
  simp only [h]
  norm_num
  rfl

/-! ## C17: categorical GWG, one chain -/

theorem cgwgPropose_valid {C : ℕ} {x : Fin D → ℤ} (hx : x ∈ validStates C D) (n : Fin (D * C)) :
    cgwgPropose x n ∈ validStates C D := by
  rw [mem_validStates] at *
  intro j
  unfold cgwgPropose
  split_ifs
  · have := n.modNat.2; exact ⟨by positivity, by exact_mod_cast this⟩
  · exact hx j

/-- The flat index undoing `n` from `x`. -/
def cgwgRev {C : ℕ} (hC : 0 < C) (x : Fin D → ℤ) (n : Fin (D * C)) : Fin (D * C) :=
  finProdFinEquiv (n.divNat, ⟨(x n.divNat).toNat % C, Nat.mod_lt _ hC⟩)

theorem cgwgRev_div {C : ℕ} (hC : 0 < C) (x : Fin D → ℤ) (n : Fin (D * C)) :
    (cgwgRev hC x n).divNat = n.divNat :=
  congrArg Prod.fst (finProdFinEquiv.symm_apply_apply
    (n.divNat, (⟨(x n.divNat).toNat % C, Nat.mod_lt _ hC⟩ : Fin C)))

theorem cgwgRev_mod {C : ℕ} (hC : 0 < C) (x : Fin D → ℤ) (n : Fin (D * C)) :
    (cgwgRev hC x n).modNat = ⟨(x n.divNat).toNat % C, Nat.mod_lt _ hC⟩ :=
  congrArg Prod.snd (finProdFinEquiv.symm_apply_apply
    (n.divNat, (⟨(x n.divNat).toNat % C, Nat.mod_lt _ hC⟩ : Fin C)))

theorem cgwgPropose_back {C : ℕ} (hC : 0 < C) {x : Fin D → ℤ} (hx : x ∈ validStates C D)
    (n : Fin (D * C)) : cgwgPropose (cgwgPropose x n) (cgwgRev hC x n) = x := by
  rw [mem_validStates] at hx
  funext j
  unfold cgwgPropose
  rw [cgwgRev_div, cgwgRev_mod]
  split_ifs with h
  · subst h
    have := hx n.divNat
    show ((((x n.divNat).toNat % C : ℕ)) : ℤ) = _
    rw [Nat.mod_eq_of_lt (by omega)]; omega
  · rfl

theorem cgwgRev_rev {C : ℕ} (hC : 0 < C) (x : Fin D → ℤ) (n : Fin (D * C)) :
    cgwgRev hC (cgwgPropose x n) (cgwgRev hC x n) = n := by
  have h : (cgwgPropose x n n.divNat).toNat % C = n.modNat := by
    unfold cgwgPropose
    rw [if_pos rfl, Int.toNat_natCast, Nat.mod_eq_of_lt n.modNat.2]
  have e : cgwgRev hC (cgwgPropose x n) (cgwgRev hC x n) = finProdFinEquiv (n.divNat, n.modNat) := by
    unfold cgwgRev
    congr 1
    have h1 := cgwgRev_div hC x n
    unfold cgwgRev at h1
    rw [Prod.mk.injEq]
    refine ⟨h1, ?_⟩
    ext
    show (cgwgPropose x n _).toNat % C = _
    rw [h1, h]
  rw [e]
  exact finProdFinEquiv.apply_symm_apply n

/-- When the proposal differs from the sample, the reverse index computed by the code is the flat
index of the old value at the changed site. -/
theorem cgwgRevIdx_eq {C : ℕ} (hC : 0 < C) {x : Fin D → ℤ} (hx : x ∈ validStates C D)
    (n : Fin (D * C)) (hne : cgwgPropose x n ≠ x) :
    cgwgRevIdx x n = ((cgwgRev hC x n : ℕ) : ℤ) := by
  rw [mem_validStates] at hx
  have hsite : x n.divNat ≠ cgwgPropose x n n.divNat := by
    intro h
    apply hne
    funext j
    by_cases hj : j = n.divNat
    · rw [hj, ← h]
    · unfold cgwgPropose; rw [if_neg hj]
  have hsum : ∑ j, (if x j ≠ cgwgPropose x n j then (1 : ℤ) else 0) * x j = x n.divNat := by
    rw [Finset.sum_eq_single n.divNat]
    · rw [if_pos hsite, one_mul]
    · intro j _ hj
      rw [if_neg, zero_mul]
      unfold cgwgPropose; rw [if_neg hj]; simp
    · intro h; exact absurd (mem_univ _) h
  unfold cgwgRevIdx
  rw [hsum]
  have h1 := hx n.divNat
  have hv : ((cgwgRev hC x n : Fin (D * C)) : ℕ) = (x n.divNat).toNat % C + C * (n.divNat : ℕ) := by
    unfold cgwgRev; rw [finProdFinEquiv_apply_val]
  rw [hv, Nat.mod_eq_of_lt (by omega)]
  push_cast
  rw [Int.toNat_of_nonneg h1.1]; ring

theorem gatherClamp_fin {n : ℕ} (v : Fin n → ℝ) (i : Fin n) : gatherClamp v ((i : ℕ) : ℤ) = v i := by
  unfold gatherClamp
  have hi := i.2
  rw [dif_pos (by omega)]
  congr 1
  ext
  show min ((i : ℕ) : ℤ).toNat (n - 1) = i
  rw [Int.toNat_natCast]; omega

/-- Log acceptance ratio of one chain run on its own, as computed by the code. -/
noncomputable def cgwgLogAcc {C : ℕ} (h : ℝ → ℝ) (f : (Fin D → Fin C → ℝ) → ℝ)
    (g : (Fin D → Fin C → ℝ) → Fin D → Fin C → ℝ) (x : Fin D → ℤ) (n : Fin (D * C)) : ℝ :=
  let y := cgwgPropose x n
  f (oneHotRow C y) + gatherClamp (cgwgDist h (oneHotRow C y) (g (oneHotRow C y))) (cgwgRevIdx x n) -
    f (oneHotRow C x) - gatherClamp (cgwgDist h (oneHotRow C x) (g (oneHotRow C x))) ((n : ℕ) : ℤ)

theorem cgwg_pathMH (hD : 0 < D) {C : ℕ} (hC : 0 < C) (h : ℝ → ℝ) (f : (Fin D → Fin C → ℝ) → ℝ)
    (g : (Fin D → Fin C → ℝ) → Fin D → Fin C → ℝ) :
    PathMH (validStates C D) (fun x => Real.exp (f (oneHotRow C x)))
      (fun x => softmax (cgwgDist h (oneHotRow C x) (g (oneHotRow C x)))) cgwgPropose
      (cgwgRev hC) (cgwgLogAcc h f g) := by
  have : Nonempty (Fin (D * C)) := ⟨⟨0, Nat.mul_pos hD hC⟩⟩
  have hq : ∀ (x : Fin D → Fin C → ℝ) n, softmax (cgwgDist h x (g x)) n =
      Real.exp (cgwgDist h x (g x) n) := by
    intro x n; unfold cgwgDist; rw [softmax_logSoftmax, exp_logSoftmax]
  exact {
    pi_pos := fun _ _ => Real.exp_pos _
    prob := fun _ _ => isProb_softmax _
    closed := fun x hx n _ => cgwgPropose_valid hx n
    back := fun x hx n _ _ => cgwgPropose_back hC hx n
    invol := fun x _ n _ _ => cgwgRev_rev hC x n
    ratio := fun x hx n _ hne => by
      rw [hq, hq, ← Real.exp_add, ← Real.exp_add, ← Real.exp_add]
      congr 1
      unfold cgwgLogAcc
      simp only
      rw [cgwgRevIdx_eq hC hx n hne, gatherClamp_fin, gatherClamp_fin]; ring
    antisymm := fun x hx n _ hne => by
      have hne' : cgwgPropose (cgwgPropose x n) (cgwgRev hC x n) ≠ cgwgPropose x n := by
        rw [cgwgPropose_back hC hx]; exact hne.symm
      unfold cgwgLogAcc
      simp only
      rw [cgwgRevIdx_eq hC hx n hne, cgwgRevIdx_eq hC (cgwgPropose_valid hx n) _ hne', cgwgRev_rev,
        cgwgPropose_back hC hx, gatherClamp_fin, gatherClamp_fin]
      ring }

theorem cgwg_isMH {C : ℕ} (tiny : ℝ) (h : ℝ → ℝ) (f : (Fin D → Fin C → ℝ) → ℝ)
    (g : (Fin D → Fin C → ℝ) → Fin D → Fin C → ℝ) (s : LBState) :
    IsMHStep (validStates C D) tiny cgwgPropose (cgwgLogAcc h f g) (fun x n u =>
      (cgwgStep tiny h C f g (fun _ : Fin 1 => x) (fun _ => n) (fun _ => u) s).1 0) := by
  constructor
  · intro x hx n u hacc
    simp only [cgwgStep, lbSelectCateg, argmaxRow_oneHotRow hx, cgwgLl, Fin.sum_univ_one]
    rw [mhStep_accept hacc, argmaxRow_oneHotRow (cgwgPropose_valid hx n)]
  · intro x hx n u hrej
    simp only [cgwgStep, lbSelectCateg, argmaxRow_oneHotRow hx, cgwgLl, Fin.sum_univ_one]
    rw [mhStep_reject hrej, argmaxRow_oneHotRow hx]

/-- C17 (kernel): for a single chain the categorical GWG step is a probability kernel on valid
samples. -/
theorem cgwg_stochastic (hD : 0 < D) {C : ℕ} (hC : 0 < C) {tiny : ℝ} (ht : 0 ≤ tiny) (h : ℝ → ℝ)
    (f : (Fin D → Fin C → ℝ) → ℝ) (g : (Fin D → Fin C → ℝ) → Fin D → Fin C → ℝ) (s : LBState) :
    Stochastic (validStates C D) (cgwgKernel tiny h C f g s) :=
  (cgwg_pathMH hD hC h f g).stochastic_step ht (cgwg_isMH tiny h f g s)

/-- C17 (ideal acceptance test): for a single chain the categorical GWG step is exactly reversible,
whatever the gradient and the balancing function. -/
theorem cgwg_reversible (hD : 0 < D) {C : ℕ} (hC : 0 < C) (h : ℝ → ℝ)
    (f : (Fin D → Fin C → ℝ) → ℝ) (g : (Fin D → Fin C → ℝ) → Fin D → Fin C → ℝ) (s : LBState) :
    Reversible (validStates C D) (fun x => Real.exp (f (oneHotRow C x))) (cgwgKernel 0 h C f g s) :=
  (cgwg_pathMH hD hC h f g).reversible_step (cgwg_isMH 0 h f g s)

/-- C17 (the code's acceptance test). -/
theorem cgwg_nearlyInvariant_run (hD : 0 < D) {C : ℕ} (hC : 0 < C) (h : ℝ → ℝ)
    (f : (Fin D → Fin C → ℝ) → ℝ) (g : (Fin D → Fin C → ℝ) → Fin D → Fin C → ℝ) (s : ℕ → LBState)
    (n : ℕ) :
    NearlyInvariant (validStates C D) (fun x => Real.exp (f (oneHotRow C x)))
      (iterate (validStates C D) (fun t => cgwgKernel mhTiny h C f g (s t)) n) (n * (2 * mhTiny)) :=
  nearlyInvariant_iterate (fun t => cgwg_stochastic hD hC mhTiny_nonneg h f g (s t))
    (fun t => (cgwg_pathMH hD hC h f g).nearlyInvariant_step mhTiny_nonneg
      (cgwg_isMH mhTiny h f g (s t))) n

/-- Instance for C17: two sites, three categories; index 5 sets site 1 to category 2, and the reverse
index is `1 * 3 + 0 = 3`. -/
example : cgwgPropose (C := 3) ![1, 0] 5 = ![1, 2] ∧ cgwgRevIdx (C := 3) ![1, 0] 5 = 3 := by decide

/-- `build_sampler` picks the binary samplers exactly for two categories. -/
theorem gwgBuild_spec (C : ℕ) (a : Option Bool) :
    (gwgBuild C a = .categorical ↔ C ≠ 2) ∧ (gwgBuild C a = .adaptive ↔ C = 2 ∧ a = some true) := by
  unfold gwgBuild
  by_cases h : C = 2 <;> rcases a with _ | _ | _ <;> simp [h]

end Discs
