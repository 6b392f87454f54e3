import Verif.Lemmas.Doeblin
import Verif.Props.Gibbs
import Verif.Props.BlockGibbs
import Verif.Props.HammingBall
import Verif.Props.RandomWalk
import Verif.Props.DMALA
import Verif.Props.DLMC
import Verif.Props.RBM

/-!
# Property C72: wherever a chain starts, its law converges to the target

Detailed balance alone does not make a sampler usable: it must also forget where it started.  Here the
law of the sample after `n` steps is shown to approach the target geometrically, uniformly in the
start.
-/

namespace Discs

open Finset Spec

variable {D : ℕ}

theorem mix_valid {C : ℕ} : ∀ x ∈ validStates C D, ∀ y ∈ validStates C D, ∀ z : Fin D → ℤ,
    (∀ j, z j = x j ∨ z j = y j) → z ∈ validStates C D := by
  intro x hx y hy z hz
  rw [mem_validStates] at *
  intro j
  rcases hz j with h | h <;> rw [h]
  exacts [hx j, hy j]

/-! ## Coordinate and block Gibbs -/

theorem gibbsKernel_pos (f : (Fin D → ℤ) → ℝ) {C : ℕ} (hC : 0 < C) (s : GibbsState) {x y : Fin D → ℤ}
    (hx : x ∈ validStates C D) (hy : y ∈ validStates C D) (h : ∀ j : Fin D, (j : ℕ) ≠ s.index → y j = x j) :
    0 < gibbsKernel f C s x y := by
  have : NeZero C := ⟨hC.ne'⟩
  obtain ⟨k, hk⟩ : ∃ k : Fin C, addAtMod C x s.index ((k : ℕ) : ℤ) = y := by
    have hCz : (0 : ℤ) < C := by exact_mod_cast hC
    by_cases hi : s.index < D
    · have h0 := Int.emod_nonneg (y ⟨_, hi⟩ - x ⟨_, hi⟩) hCz.ne'
      have h1 := Int.emod_lt_of_pos (y ⟨_, hi⟩ - x ⟨_, hi⟩) hCz
      refine ⟨⟨((y ⟨_, hi⟩ - x ⟨_, hi⟩) % C).toNat, by omega⟩, funext fun j => ?_⟩
      by_cases hj : (j : ℕ) = s.index
      · have : j = ⟨_, hi⟩ := Fin.ext hj
        simp only [addAtMod, hj, if_true]
        rw [Int.toNat_of_nonneg h0, Int.add_emod_emod, this, add_sub_cancel, emod_of_valid hy]
      · rw [addAtMod_other hx _ hj, h j hj]
    · have : y = x := funext fun j => h j (by have := j.2; omega)
      exact ⟨0, by rw [this]; simp [addAtMod_zero hx]⟩
  rw [← hk]
  exact law_pos (f := fun k => (gibbsStep C (fun _ : Fin 1 => x) (fun _ => k) s).1 0) (ω₀ := k)
    (isProb_softmax _).1 (softmax_pos _ _)

/-- **C72 (Gibbs).** From any start the law of the Gibbs chain converges geometrically: every sweep of
`dim` steps shrinks the distance to the target by a factor below one. -/
theorem gibbs_converges (f : (Fin D → ℤ) → ℝ) {C : ℕ} (hC : 0 < C) (hD : 0 < D) :
    ∃ c, 0 ≤ c ∧ c < 1 ∧ ∀ t₀, ConvergesWithin (validStates C D) (fun x => Real.exp (f x))
      (fun t => gibbsKernel f C ((gibbsUpdate C D)^[t₀ + t] gibbsInit)) D c 0 := by
  have hidx : ∀ (s s' : GibbsState), s.index = s'.index → gibbsKernel f C s = gibbsKernel f C s' := by
    intro s s' h
    funext x y
    simp only [gibbsKernel, gibbsDraw, gibbsStep, h]
  refine ergodic_of_pos (K := fun t => gibbsKernel f C ((gibbsUpdate C D)^[t] gibbsInit)) hD hD (fun x _ => Real.exp_pos _) (fun t => gibbs_stochastic f hC _)
    (fun t => invariant_of_reversible (gibbs_reversible f hC _) (gibbs_stochastic f hC _))
    (fun t => hidx _ _ (by simp [gibbs_state_iterate])) fun t => ?_
  refine iterate_pos_of_touch (fun i => gibbs_stochastic f hC _)
    (fun i => {j | (j : ℕ) = ((gibbsUpdate C D)^[t + i] gibbsInit).index})
    (fun i x hx y hy h => gibbsKernel_pos f hC _ hx hy fun j hj => h j hj) mix_valid fun j => ?_
  obtain ⟨t', ⟨h1, h2, h3⟩, -⟩ := gibbs_sweep (C := C) t j
  exact ⟨t' - t, by omega, by rw [Set.mem_ofPred_eq, Nat.add_sub_cancel' h1, h3]⟩

theorem blockGibbsKernel_pos (f : (Fin D → ℤ) → ℝ) {C b : ℕ} (hC : 0 < C) (s : BlockState)
    {x y : Fin D → ℤ} (hy : y ∈ validStates C D)
    (h : ∀ j : Fin D, ¬ covers s.index b j → y j = x j) : 0 < blockGibbsKernel f C b s x y := by
  rw [mem_validStates] at hy
  have hv : (fun i : Fin b => if h : s.index + (i : ℕ) < D then (y ⟨s.index + i, h⟩).toNat else 0) ∈
      categoriesIter C b := by
    rw [mem_categoriesIter]
    intro i
    split_ifs with hi
    · have := hy ⟨_, hi⟩; omega
    · exact hC
  obtain ⟨k, hk⟩ := List.get_of_mem hv
  have hset : setBlock x s.index ((categoriesIter C b).get k) = y := by
    rw [hk]
    funext j
    unfold setBlock
    split_ifs with hj
    · have e : s.index + ((j : ℕ) - s.index) = j := by omega
      dsimp only
      rw [dif_pos (by rw [e]; exact j.2)]
      simp only [e, Fin.eta]
      exact Int.toNat_of_nonneg (hy j).1
    · exact (h j fun hc => hj ⟨hc.1, by have := hc.1; have := hc.2; omega⟩).symm
  rw [← hset]
  have : Nonempty (Fin (categoriesIter C b).length) := ⟨k⟩
  exact law_pos (f := fun k => (blockGibbsStep C b (fun _ : Fin 1 => x) (fun _ => k) s).1 0) (ω₀ := k)
    (isProb_softmax _).1 (softmax_pos _ _)

/-- **C72 (block Gibbs).** The same for block Gibbs, for every block size: one window of
`dim / gcd(dim, block_size)` steps covers all coordinates. -/
theorem blockGibbs_converges (f : (Fin D → ℤ) → ℝ) {C b : ℕ} (hC : 0 < C) (hD : 0 < D) (hb : 0 < b) :
    ∃ c, 0 ≤ c ∧ c < 1 ∧ ∀ t₀, ConvergesWithin (validStates C D) (fun x => Real.exp (f x))
      (fun t => blockGibbsKernel f C b ((blockGibbsUpdate C D b)^[t₀ + t] blockInit)) (D / Nat.gcd D b) c 0 := by
  have hidx : ∀ (s s' : BlockState), s.index = s'.index →
      blockGibbsKernel f C b s = blockGibbsKernel f C b s' := by
    intro s s' h
    funext x y
    simp only [blockGibbsKernel, blockGibbsStep, h]
  have hg : 0 < Nat.gcd D b := Nat.gcd_pos_of_pos_left _ hD
  refine ergodic_of_pos (K := fun t => blockGibbsKernel f C b ((blockGibbsUpdate C D b)^[t] blockInit))
    (Nat.div_pos (Nat.le_of_dvd hD (Nat.gcd_dvd_left D b)) hg) hD
    (fun x _ => Real.exp_pos _) (fun t => blockGibbs_stochastic f hC _)
    (fun t => invariant_of_reversible (blockGibbs_reversible f C b _) (blockGibbs_stochastic f hC _))
    (fun t => hidx _ _ (by simp [block_start, add_mul])) fun t => ?_
  refine iterate_pos_of_touch (fun i => blockGibbs_stochastic f hC _)
    (fun i => {j | covers ((blockGibbsUpdate C D b)^[t + i] blockInit).index b j})
    (fun i x hx y hy h => blockGibbsKernel_pos f hC _ hy fun j hj => h j hj) mix_valid fun j => ?_
  obtain ⟨t', h1, h2, h3⟩ := block_covers_window hb j t
  exact ⟨t' - t, by omega, by rw [Set.mem_ofPred_eq, Nat.add_sub_cancel' h1, block_start]; exact h3⟩

/-- **C72 (Hamming ball, blocks of one).** With `block_size = 1` the Hamming-ball sampler converges as
the Gibbs sampler does.  (With larger blocks it does not have the target as invariant law, see C10.) -/
theorem hb_converges_partial (f : (Fin D → ℤ) → ℝ) {C : ℕ} (hC : 2 ≤ C) (hD : 0 < D) (m : ℕ)
    (hm : samplesPerHamming C 1 = .ok m) :
    ∃ c, 0 ≤ c ∧ c < 1 ∧ ∀ t₀, ConvergesWithin (validStates C D) (fun x => Real.exp (f x))
      (fun t => hbKernel f C 1 m ((hbUpdate C D 1)^[t₀ + t] blockInit)) D c 0 := by
  obtain ⟨c, h0, h1, hc⟩ := gibbs_converges f (by omega : 0 < C) hD
  refine ⟨c, h0, h1, fun t₀ => (hc t₀).congr fun t x hx y => ?_⟩
  rw [hb_block1_eq_gibbs f hC m hm _ hx]
  simp only [gibbsKernel, gibbsDraw, gibbsStep, hb_state_iterate, gibbs_state_iterate, mul_one]

/-- **C72 (RBM block Gibbs).** -/
theorem rbm_converges {V H : ℕ} (P : RBMParams V H) :
    ∃ c, 0 ≤ c ∧ c < 1 ∧ ConvergesWithin (validStates 2 V)
      (fun x => Real.exp (rbmForward P fun i => (x i : ℝ))) (fun _ => rbmKernel P) 1 c 0 := by
  have hst := (rbm_blockgibbs_reversible P).1
  suffices h : ∃ c, 0 ≤ c ∧ c < 1 ∧ ∀ t₀ : ℕ, ConvergesWithin (validStates 2 V)
      (fun x => Real.exp (rbmForward P fun i => (x i : ℝ))) (fun _ => rbmKernel P) 1 c 0 by
    obtain ⟨c, h0, h1, hc⟩ := h
    exact ⟨c, h0, h1, hc 0⟩
  refine ergodic_of_pos (K := fun _ => rbmKernel P) one_pos one_pos
    (fun x _ => Real.exp_pos _) (fun _ => hst)
    (fun _ => invariant_of_reversible (rbm_blockgibbs_reversible P).2 hst) (fun _ => rfl)
    fun t x hx y hy => ?_
  have e : iterate (validStates 2 V) (fun _ => rbmKernel P) 1 x y = rbmKernel P x y := by
    simp [iterate, comp, hx]
  rw [e]
  obtain ⟨v, rfl⟩ := exists_boolState hy
  rw [rbmKernel_eq]
  have hp : ∀ {n : ℕ} (p : Fin n → ℝ), (∀ j, 0 < p j ∧ p j < 1) → ∀ w, 0 < flipLaw p w := by
    intro n p hp w
    refine Finset.prod_pos fun j _ => ?_
    have := hp j
    split_ifs <;> linarith
  refine Finset.sum_pos (fun h _ => mul_pos (hp _ (fun j => ?_) _) (hp _ (fun j => ?_) _))
    ⟨fun _ => false, mem_univ _⟩
  · exact ⟨sigmoid_pos _, sigmoid_lt_one _⟩
  · exact ⟨sigmoid_pos _, sigmoid_lt_one _⟩

/-! ## Metropolis–Hastings samplers

`a` is a floor on the probability with which a site keeps its value and on the probability of every
other value.  The rate is `1 - a ^ dim`; the floor of the distance is what the offsets in the acceptance
test (`tiny`) and in the logs of the proposal (`eps`) cost. -/

theorem pow_le_prod {n : ℕ} {a : ℝ} (ha : 0 ≤ a) {p : Fin n → ℝ} (h : ∀ j, a ≤ p j) : a ^ n ≤ ∏ j, p j := by
  calc a ^ n = ∏ _j : Fin n, a := by simp
    _ ≤ ∏ j, p j := Finset.prod_le_prod (fun _ _ => ha) fun j _ => h j

/-- With the radius away from its ends, every draw of the random walk has probability at least `a ^ dim`. -/
theorem rw_floor {C : ℕ} (hC : 2 ≤ C) {r a : ℝ} (ha : 0 < a) (hlo : a * (C - 1 : ℕ) * D ≤ r)
    (hhi : r ≤ (1 - a * (C - 1 : ℕ)) * D) (d : RWDraw C D) : a ^ D ≤ rwDrawLaw C D r d := by
  have hc : (1 : ℝ) ≤ ((C - 1 : ℕ) : ℝ) := by exact_mod_cast (by omega : 1 ≤ C - 1)
  refine pow_le_prod ha.le fun j => ?_
  have hDp : (0 : ℝ) < D := by exact_mod_cast j.pos
  have hr : a * (C - 1 : ℕ) ≤ r / D := by rw [le_div_iff₀ hDp]; exact hlo
  have hr' : r / D ≤ 1 - a * (C - 1 : ℕ) := by rw [div_le_iff₀ hDp]; exact hhi
  rw [mul_one_div, le_div_iff₀ (by linarith)]
  split_ifs <;> linarith

/-- Some draw of the random walk leads from any valid sample to any other. -/
theorem rw_reach {C : ℕ} (hC : 2 ≤ C) {x y : Fin D → ℤ} (hx : x ∈ validStates C D) (hy : y ∈ validStates C D) :
    ∃ d : RWDraw C D, rwPropose x d = y := by
  have hC0 : 0 < C := by omega
  have hCz : (0 : ℤ) < C := by exact_mod_cast hC0
  have hmod : ∀ j, 0 ≤ (y j - x j) % (C : ℤ) ∧ (y j - x j) % (C : ℤ) < C := fun j =>
    ⟨Int.emod_nonneg _ hCz.ne', Int.emod_lt_of_pos _ hCz⟩
  refine ⟨(fun j => decide (x j ≠ y j),
    fun j => ⟨((y j - x j) % (C : ℤ)).toNat - 1, by have := hmod j; omega⟩), ?_⟩
  funext j
  simp only [rwPropose]
  by_cases hxy : x j = y j
  · simp [hxy, emod_of_valid hy]
  · have hne : (y j - x j) % (C : ℤ) ≠ 0 := by
      intro h
      have h3 : y j % C = x j % C := Int.emod_eq_emod_iff_emod_sub_eq_zero.2 h
      rw [emod_of_valid hy, emod_of_valid hx] at h3
      exact hxy h3.symm
    have hm := hmod j
    have e : (((((y j - x j) % (C : ℤ)).toNat - 1 : ℕ) : ℤ) + 1) = (y j - x j) % (C : ℤ) := by omega
    simp only [hxy, ne_eq, not_false_eq_true, decide_true, if_true, one_mul, e]
    rw [Int.emod_add_emod, sub_add_cancel, emod_of_valid hy]

/-- **C72 (random walk).** With radii that keep the probability of resampling a site and that of
keeping it at least `a * (num_categories - 1)`, the random-walk run converges, down to the cost of the
offset of the acceptance test. -/
theorem rw_converges (adaptive : Bool) (tgt : ℝ) {tiny : ℝ} (ht : 0 ≤ tiny) (f : (Fin D → ℤ) → ℝ) {C : ℕ}
    (hC : 2 ≤ C) (s : ℕ → RWState) {a : ℝ} (ha : 0 < a) (ha1 : a ≤ 1)
    (hlo : ∀ t, a * (C - 1 : ℕ) * D ≤ (s t).radius) (hhi : ∀ t, (s t).radius ≤ (1 - a * (C - 1 : ℕ)) * D) :
    ConvergesWithin (validStates C D) (fun x => Real.exp (f x))
      (fun t => rwKernel adaptive tgt tiny f C (s t)) 1 (1 - a ^ D) (2 * tiny / a ^ D) := by
  have hC0 : 0 < C := by omega
  have h0 : ∀ t, 0 ≤ (s t).radius := fun t => le_trans (by positivity) (hlo t)
  have h1 : ∀ t, (s t).radius ≤ D := fun t => (hhi t).trans (by
    have : 0 ≤ a * (C - 1 : ℕ) * (D : ℝ) := by positivity
    linarith)
  have hfloor := fun t => rw_floor hC ha (hlo t) (hhi t)
  have := PathMH.convergesWithin (K := fun t => rwKernel adaptive tgt tiny f C (s t))
    (fun t => rw_pathMH f hC (h0 t) (h1 t))
    (q := fun t _ => rwDrawLaw C D (s t).radius) (ε := 0) (a := a ^ D)
    (fun t x _ => isProb_rwDrawLaw hC (h0 t) (h1 t)) (fun t x _ d _ => rwPropose_valid hC0 x d)
    (fun t x _ => by simp) (by positivity) (pow_le_one₀ ha.le ha1) (fun t x hx y hy => ?_) ht
    (fun t => rw_isMH adaptive tgt tiny f C (s t)) (fun t x _ y => rfl)
  · simpa using this
  · obtain ⟨d, hd⟩ := rw_reach hC hx hy
    exact ⟨d, hd, hfloor t _, hfloor t _⟩

/-! Independent site flips. -/

theorem floor_guard {eps a p : ℝ} (he : 0 ≤ eps) (ha : a ≤ 1 / 2) (h0 : a ≤ p) (h1 : p ≤ 1 - a) :
    a ≤ guardProb eps p ∧ guardProb eps p ≤ 1 - a := by
  unfold guardProb
  have : 0 < 1 + 2 * eps := by linarith
  rw [le_div_iff₀ this, div_le_iff₀ this]
  constructor <;> nlinarith

/-- A run of steps that propose independent site flips with probabilities in `[a, 1 - a]`. -/
theorem flip_converges {eps tiny a : ℝ} (he : 0 ≤ eps) (ht : 0 ≤ tiny) (ha : 0 < a) (ha2 : a ≤ 1 / 2)
    {f : (Fin D → ℤ) → ℝ} {p : ℕ → (Fin D → ℤ) → Fin D → ℝ}
    (hlo : ∀ t, ∀ x ∈ validStates 2 D, ∀ j, a ≤ p t x j ∧ p t x j ≤ 1 - a)
    (hp : ∀ t x j, 0 < p t x j ∧ p t x j < 1)
    {stepf : ℕ → (Fin D → ℤ) → (Fin D → Bool) → ℝ → (Fin D → ℤ)}
    (h : ∀ t, IsMHStep (validStates 2 D) tiny flipSites (flipLogAcc eps f (p t)) (stepf t))
    {K : ℕ → (Fin D → ℤ) → (Fin D → ℤ) → ℝ}
    (hK : ∀ t, ∀ x ∈ validStates 2 D, ∀ y, K t x y = lawU (flipLaw (p t x)) (stepf t x) y) :
    ConvergesWithin (validStates 2 D) (fun x => Real.exp (f x)) K 1 (1 - a ^ D)
      ((2 * tiny + 2 * D * eps) / a ^ D) := by
  have hp' : ∀ t x j, 0 ≤ p t x j ∧ p t x j ≤ 1 := fun t x j => ⟨(hp t x j).1.le, (hp t x j).2.le⟩
  have hfl : ∀ t, ∀ x ∈ validStates 2 D, ∀ ω, a ^ D ≤ flipLaw (fun j => guardProb eps (p t x j)) ω := by
    intro t x hx ω
    refine pow_le_prod ha.le fun j => ?_
    have := floor_guard he ha2 (hlo t x hx j).1 (hlo t x hx j).2
    split_ifs <;> linarith
  refine PathMH.convergesWithin (q := fun t x => flipLaw (p t x))
    (fun t => flip_pathMH he f (hp' t) fun x j =>
      ⟨by linarith [(hp t x j).1], by linarith [(hp t x j).2]⟩)
    (fun t x _ => isProb_flipLaw (hp' t x)) (fun t x hx ω _ => flipSites_valid hx ω)
    (fun t x _ => ?_) (by positivity) (pow_le_one₀ ha.le (by linarith)) (fun t x hx y hy => ?_) ht h hK
  · refine (flipLaw_close (hp' t x) fun j => guardProb_mem he (hp' t x j).1 (hp' t x j).2).trans ?_
    calc ∑ j, 2 * |p t x j - guardProb eps (p t x j)| ≤ ∑ _j : Fin D, 2 * eps :=
          Finset.sum_le_sum fun j _ => mul_le_mul_of_nonneg_left
            (guardProb_close he (hp' t x j).1 (hp' t x j).2) (by norm_num)
      _ = 2 * D * eps := by simp; ring
  · refine ⟨fun j => decide (x j ≠ y j), funext fun j => ?_, hfl t x hx _, hfl t y hy _⟩
    have h1 := mem_validStates_two.1 hx j
    have h2 := mem_validStates_two.1 hy j
    unfold flipSites
    by_cases hxy : x j = y j
    · simp [hxy]
    · simp [hxy]; omega

/-- Positive quantities attached to finitely many states and sites have a common floor. -/
theorem exists_floor {X I : Type*} [Fintype I] (S : Finset X) (φ : X → I → ℝ)
    (h : ∀ x ∈ S, ∀ i, 0 < φ x i) : ∃ a, 0 < a ∧ a ≤ 1 / 2 ∧ ∀ x ∈ S, ∀ i, a ≤ φ x i := by
  classical
  rcases (S ×ˢ (univ : Finset I)).eq_empty_or_nonempty with he | hne
  · refine ⟨1 / 2, by norm_num, le_rfl, fun x hx i => ?_⟩
    have : (x, i) ∈ S ×ˢ (univ : Finset I) := by simp [hx]
    rw [he] at this
    exact absurd this (Finset.notMem_empty _)
  · obtain ⟨q, hq, hmin⟩ := Finset.exists_min_image _ (fun q : X × I => φ q.1 q.2) hne
    simp only [mem_product, mem_univ, and_true] at hq
    refine ⟨min (1 / 2) (φ q.1 q.2), lt_min (by norm_num) (h _ hq _), min_le_left _ _, fun x hx i => ?_⟩
    exact (min_le_right _ _).trans (hmin (x, i) (by simp [hx]))

/-- **C72 (DMALA, binary).** With the same step sizes at every step (no adaptation, or adaptation
finished) binary DMALA converges to the target from every start, for any model, gradient function and
balancing function. -/
theorem dmalaBinary_converges (c : DCfg) (h : ℝ → ℝ)
    (f : (Fin D → ℤ) → ℝ) (g : (Fin D → ℤ) → Fin D → ℝ) (τ : (Fin D → ℤ) → ℝ) :
    ∃ a, 0 < a ∧ a ≤ 1 / 2 ∧
      (∀ x ∈ validStates 2 D, ∀ j, a ≤ dmalaFlipProb (τ x) (h (deltaBinary g x j)) ∧
        dmalaFlipProb (τ x) (h (deltaBinary g x j)) ≤ 1 - a) ∧
      ∀ s : ℕ → DState, (∀ t, dmalaFixed c (s t)) → (∀ t x, dmalaTau1 c h g (s t) x = some (τ x)) →
      ∀ tiny eps : ℝ, 0 ≤ tiny → 0 ≤ eps → ConvergesWithin (validStates 2 D) (fun x => Real.exp (f x))
        (fun t => dmalaBinaryKernel c tiny eps h f g (s t)) 1 (1 - a ^ D)
        ((2 * tiny + 2 * D * eps) / a ^ D) := by
  have hm := fun x j => dmalaFlipProb_mem (τ x) (h (deltaBinary g x j))
  obtain ⟨a, ha, ha2, hfl⟩ := exists_floor (I := Fin D) (validStates 2 D)
    (fun x j => min (dmalaFlipProb (τ x) (h (deltaBinary g x j)))
      (1 - dmalaFlipProb (τ x) (h (deltaBinary g x j))))
    fun x _ j => lt_min (hm x j).1 (by linarith [(hm x j).2])
  have hfl' : ∀ x ∈ validStates 2 D, ∀ j, a ≤ dmalaFlipProb (τ x) (h (deltaBinary g x j)) ∧
        dmalaFlipProb (τ x) (h (deltaBinary g x j)) ≤ 1 - a := fun x hx j => by
    have h1 := (hfl x hx j).trans (min_le_left _ _)
    have h2 := (hfl x hx j).trans (min_le_right _ _)
    exact ⟨h1, by linarith⟩
  refine ⟨a, ha, ha2, hfl', fun s hfix hτ tiny eps ht he => ?_⟩
  have hcase : ∀ t, (∀ x, dmalaFlipLaw c h g (s t) x =
        flipLaw fun j => dmalaFlipProb (τ x) (h (deltaBinary g x j))) ∧
      IsMHStep (validStates 2 D) tiny flipSites
        (flipLogAcc eps f fun x j => dmalaFlipProb (τ x) (h (deltaBinary g x j)))
        (fun x flip u => (dmalaBinaryStep c tiny eps h f g (fun _ : Fin 1 => x) (fun _ => flip)
          (fun _ => u) (s t)).1 0) := by
    intro t
    rcases dmala_cases c tiny eps h f g (s t) (hfix t) with ⟨-, hn⟩ | ⟨τ', h1, hl, hs⟩
    · exact absurd (hτ t 0) (by rw [hn]; simp)
    · have : τ' = τ := funext fun x => by
        have := hτ t x
        rw [h1 x] at this
        exact Option.some.inj this
      subst this
      exact ⟨hl, hs⟩
  exact flip_converges he ht ha ha2 (fun _ => hfl') (fun _ => hm) (fun t => (hcase t).2) fun t x _ y => by
    unfold dmalaBinaryKernel; rw [(hcase t).1]

/-- **C72 (DLMC, binary).** -/
theorem dlmcBinary_converges (c : DCfg) (hsol : c.solver ∈ knownSolvers) (h : ℝ → ℝ)
    (f : (Fin D → ℤ) → ℝ) (g : (Fin D → ℤ) → Fin D → ℝ) (τ : (Fin D → ℤ) → ℝ) :
    ∃ a, 0 < a ∧ a ≤ 1 / 2 ∧
      (∀ x ∈ validStates 2 D, ∀ j, a ≤ dlmcProb c h g (τ x) x j ∧ dlmcProb c h g (τ x) x j ≤ 1 - a) ∧
      ∀ s : ℕ → DState, (∀ t, dlmcFixed c (s t)) → (∀ t x, dlmcTau1 c h g (s t) x = some (τ x)) →
      ∀ tiny eps : ℝ, 0 ≤ tiny → 0 ≤ eps → ConvergesWithin (validStates 2 D) (fun x => Real.exp (f x))
        (fun t => dlmcBinaryKernel c tiny eps h f g (s t)) 1 (1 - a ^ D)
        ((2 * tiny + 2 * D * eps) / a ^ D) := by
  have hm := fun x j => dlmcProb_mem c h g hsol (τ x) x j
  obtain ⟨a, ha, ha2, hfl⟩ := exists_floor (I := Fin D) (validStates 2 D)
    (fun x j => min (dlmcProb c h g (τ x) x j) (1 - dlmcProb c h g (τ x) x j))
    fun x _ j => lt_min (hm x j).1 (by linarith [(hm x j).2])
  have hfl' : ∀ x ∈ validStates 2 D, ∀ j, a ≤ dlmcProb c h g (τ x) x j ∧
        dlmcProb c h g (τ x) x j ≤ 1 - a := fun x hx j => by
    have h1 := (hfl x hx j).trans (min_le_left _ _)
    have h2 := (hfl x hx j).trans (min_le_right _ _)
    exact ⟨h1, by linarith⟩
  refine ⟨a, ha, ha2, hfl', fun s hfix hτ tiny eps ht he => ?_⟩
  have hcase : ∀ t, ∃ stepf : (Fin D → ℤ) → (Fin D → Bool) → ℝ → (Fin D → ℤ),
      IsMHStep (validStates 2 D) tiny flipSites (flipLogAcc eps f fun x => dlmcProb c h g (τ x) x)
        stepf ∧
      ∀ x y, dlmcBinaryKernel c tiny eps h f g (s t) x y =
        lawU (flipLaw (dlmcProb c h g (τ x) x)) (stepf x) y := by
    intro t
    rcases dlmc_cases c tiny eps h f g (s t) hsol (hfix t) with ⟨-, hn⟩ | ⟨τ', stepf, h1, hs, hl⟩
    · exact absurd (hτ t 0) (by rw [hn]; simp)
    · have : τ' = τ := funext fun x => by
        have := hτ t x
        rw [h1 x] at this
        exact Option.some.inj this
      subst this
      exact ⟨stepf, hs, hl⟩
  choose stepf hs hl using hcase
  exact flip_converges he ht ha ha2 (fun _ => hfl') (fun _ => hm) hs fun t x _ y => hl t x y

/-- A run of steps that redraw every site from positive probabilities. -/
theorem categ_converges {C : ℕ} (hC : 0 < C) {tiny a : ℝ} (ht : 0 ≤ tiny) (ha : 0 < a) (ha2 : a ≤ 1 / 2)
    {f : (Fin D → Fin C → ℝ) → ℝ} {dist : (Fin D → ℤ) → Fin D → Fin C → ℝ}
    (hlo : ∀ x ∈ validStates C D, ∀ j k, a ≤ softmax (dist x j) k)
    {stepf : ℕ → (Fin D → ℤ) → (Fin D → Fin C) → ℝ → (Fin D → ℤ)}
    (h : ∀ t, IsMHStep (validStates C D) tiny (fun _ v => categRow v) (categLogAcc f dist) (stepf t))
    {K : ℕ → (Fin D → ℤ) → (Fin D → ℤ) → ℝ}
    (hK : ∀ t, ∀ x ∈ validStates C D, ∀ y, K t x y = lawU (categLaw (dist x)) (stepf t x) y) :
    ConvergesWithin (validStates C D) (fun x => Real.exp (f (oneHotRow C x))) K 1 (1 - a ^ D)
      (2 * tiny / a ^ D) := by
  have : Nonempty (Fin C) := ⟨⟨0, hC⟩⟩
  have := PathMH.convergesWithin (K := K) (fun _ => categ_pathMH hC f dist)
    (q := fun _ x => categLaw (dist x)) (ε := 0) (a := a ^ D)
    (fun t x _ => isProb_pi fun j => isProb_softmax _) (fun t x _ v _ => categRow_valid v)
    (fun t x _ => by simp) (by positivity) (pow_le_one₀ ha.le (by linarith)) (fun t x hx y hy => ?_) ht h hK
  · simpa using this
  · exact ⟨toCateg hC y, categRow_toCateg hC hy, pow_le_prod ha.le fun j => hlo x hx j _,
      pow_le_prod ha.le fun j => hlo y hy j _⟩

/-- **C72 (DMALA, categorical).** -/
theorem dmalaCateg_converges (c : DCfg) {C : ℕ} (hC : 2 < C) (h : ℝ → ℝ)
    (f : (Fin D → Fin C → ℝ) → ℝ) (g : (Fin D → Fin C → ℝ) → Fin D → Fin C → ℝ) (τ : (Fin D → ℤ) → ℝ) :
    ∃ a, 0 < a ∧ a ≤ 1 / 2 ∧ ∀ s : ℕ → DState, (∀ t, dmalaFixed c (s t)) →
      (∀ t x, dmalaCategTau1 c h g (s t) (oneHotRow C x) = some (τ x)) → ∀ tiny : ℝ, 0 ≤ tiny → ConvergesWithin (validStates C D)
      (fun x => Real.exp (f (oneHotRow C x)))
      (fun t => dmalaCategKernel c tiny h C f g (s t)) 1 (1 - a ^ D) (2 * tiny / a ^ D) := by
  have : Nonempty (Fin C) := ⟨⟨0, by omega⟩⟩
  set dist : (Fin D → ℤ) → Fin D → Fin C → ℝ := fun x j =>
    dmalaCategDist (τ x) (fun k => h (deltaCateg g (oneHotRow C x) j k)) (oneHotRow C x j) with hd
  obtain ⟨a, ha, ha2, hfl⟩ := exists_floor (I := Fin D × Fin C) (validStates C D)
    (fun x i => softmax (dist x i.1) i.2) fun x _ i => softmax_pos _ _
  refine ⟨a, ha, ha2, fun s hfix hτ tiny ht => ?_⟩
  have hcase : ∀ t, (∀ x, dmalaCategLaw c h g (s t) (oneHotRow C x) = categLaw (dist x)) ∧
      IsMHStep (validStates C D) tiny (fun _ v => categRow v) (categLogAcc f dist)
        (fun x v u => (dmalaCategStep c tiny h C f g (fun _ : Fin 1 => x) (fun _ => v)
          (fun _ => u) (s t)).1 0) := by
    intro t
    rcases dmalaCateg_cases c tiny h f g (s t) hC (hfix t) with ⟨-, hn⟩ | ⟨dist', ⟨τ', h1, hd'⟩, hl, hs⟩
    · exact absurd (hτ t 0) (by rw [hn]; simp)
    · have : τ' = τ := funext fun x => by
        have := hτ t x
        rw [h1 x] at this
        exact Option.some.inj this
      subst this
      subst hd'
      exact ⟨hl, hs⟩
  refine categ_converges (by omega) ht ha ha2 (fun x hx j k => hfl x hx (j, k))
    (fun t => (hcase t).2) fun t x _ y => ?_
  unfold dmalaCategKernel; rw [(hcase t).1]

/-- **C72 (DLMC, categorical).** -/
theorem dlmcCateg_converges (c : DCfg) (hsol : c.solver ∈ knownSolvers) {C : ℕ} (hC : 2 < C)
    (h : ℝ → ℝ) (f : (Fin D → Fin C → ℝ) → ℝ) (g : (Fin D → Fin C → ℝ) → Fin D → Fin C → ℝ) (τ : (Fin D → ℤ) → ℝ) :
    ∃ a, 0 < a ∧ a ≤ 1 / 2 ∧ ∀ s : ℕ → DState, (∀ t, dlmcFixed c (s t)) →
      (∀ t x, dlmcCategTau1 c h g (s t) (oneHotRow C x) = some (τ x)) → ∀ tiny : ℝ, 0 ≤ tiny → ConvergesWithin (validStates C D)
      (fun x => Real.exp (f (oneHotRow C x)))
      (fun t => dlmcCategKernel c tiny h C f g (s t)) 1 (1 - a ^ D) (2 * tiny / a ^ D) := by
  have : Nonempty (Fin C) := ⟨⟨0, by omega⟩⟩
  set dist : (Fin D → ℤ) → Fin D → Fin C → ℝ := fun x j => ((dlmcCategDist c.solver (τ x)
    (fun k => h (deltaCateg g (oneHotRow C x) j k)) (deltaCateg g (oneHotRow C x) j)
    (oneHotRow C x j)).toOption).getD 0 with hd
  obtain ⟨a, ha, ha2, hfl⟩ := exists_floor (I := Fin D × Fin C) (validStates C D)
    (fun x i => softmax (dist x i.1) i.2) fun x _ i => softmax_pos _ _
  refine ⟨a, ha, ha2, fun s hfix hτ tiny ht => ?_⟩
  have hcase : ∀ t, ∃ stepf : (Fin D → ℤ) → (Fin D → Fin C) → ℝ → (Fin D → ℤ),
      IsMHStep (validStates C D) tiny (fun _ v => categRow v) (categLogAcc f dist) stepf ∧
      ∀ x ∈ validStates C D, ∀ y, dlmcCategKernel c tiny h C f g (s t) x y =
        lawU (categLaw (dist x)) (stepf x) y := by
    intro t
    rcases dlmcCateg_cases c tiny h f g (s t) hsol hC (hfix t) with
      ⟨-, hn⟩ | ⟨dist', stepf, ⟨τ', h1, hd'⟩, hs, hl⟩
    · exact absurd (hτ t 0) (by rw [hn]; simp)
    · have : τ' = τ := funext fun x => by
        have := hτ t x
        rw [h1 x] at this
        exact Option.some.inj this
      subst this
      subst hd'
      exact ⟨stepf, hs, hl⟩
  choose stepf hs hl using hcase
  exact categ_converges (by omega) ht ha ha2 (fun x hx j k => hfl x hx (j, k)) hs hl

/-! ### Consequence for averages, and instances -/

/-- **C72 (averages).** The bias of the expectation of any function bounded by `M` after `n` Gibbs steps
goes to zero at the same rate. -/
theorem gibbs_expectation (f : (Fin D → ℤ) → ℝ) {C : ℕ} (hC : 0 < C) (hD : 0 < D) :
    ∃ c : ℝ, 0 ≤ c ∧ c < 1 ∧ ∀ (φ : (Fin D → ℤ) → ℝ) (M : ℝ), (∀ y ∈ validStates C D, |φ y| ≤ M) →
      ∀ x ∈ validStates C D, ∀ n,
        |Spec.expect (validStates C D) (iterate (validStates C D)
            (fun t => gibbsKernel f C ((gibbsUpdate C D)^[t] gibbsInit)) n x) φ -
          Spec.expect (validStates C D) (target (validStates C D) fun x => Real.exp (f x)) φ| ≤
            2 * c ^ (n / D) * M := by
  obtain ⟨c, h0, h1, hc⟩ := gibbs_converges f hC hD
  refine ⟨c, h0, h1, fun φ M hφ x hx n => ?_⟩
  have := (hc 0).expect_le hφ hx n
  simpa using this

/-- **C72 (DMALA, fixed step size).** Without adaptation the hypotheses of `dmalaBinary_converges` hold
for every configured step size and every sequence of sampler states. -/
theorem dmalaBinary_converges_nonadaptive (c : DCfg) (hc : c.adaptive = false) (h : ℝ → ℝ)
    (f : (Fin D → ℤ) → ℝ) (g : (Fin D → ℤ) → Fin D → ℝ) :
    ∃ a, 0 < a ∧ a ≤ 1 / 2 ∧ ∀ (s : ℕ → DState), ∀ tiny eps : ℝ, 0 ≤ tiny → 0 ≤ eps →
      ConvergesWithin (validStates 2 D) (fun x => Real.exp (f x))
        (fun t => dmalaBinaryKernel c tiny eps h f g (s t)) 1 (1 - a ^ D)
        ((2 * tiny + 2 * D * eps) / a ^ D) := by
  obtain ⟨a, h1, h2, -, h3⟩ := dmalaBinary_converges c h f g fun _ => -1 / (2 * c.stepSize)
  exact ⟨a, h1, h2, fun s => h3 s (fun _ => Or.inl hc) fun t x => by simp [dmalaTau1, dmalaLogTau, hc]⟩

/-- Instance for the random walk: two binary sites, radius one, floor 1/2: every proposal has
probability 1/4 and the distance to the target shrinks by 3/4 per step. -/
example (f : (Fin 2 → ℤ) → ℝ) : ConvergesWithin (validStates 2 2) (fun x => Real.exp (f x))
    (fun _ => rwKernel false (1 / 4) 0 f 2 rwInit) 1 (3 / 4) 0 := by
  have := rw_converges (D := 2) false (1 / 4) le_rfl f le_rfl (fun _ => rwInit) (a := 1 / 2)
    (by norm_num) (by norm_num) (fun _ => by norm_num [rwInit]) (fun _ => by norm_num [rwInit])
  norm_num at this
  simpa using this

/-- Instance: a non-adaptive DMALA configuration (`step_size = 0.3`). -/
example : (⟨false, false, 0.3, 0.574, 100, 20, 3, "interpolate"⟩ : DCfg).adaptive = false := rfl

/-- Instance: an adaptive DLMC configuration past its first step. -/
example : dlmcFixed ⟨true, false, 0.3, 0.574, 100, -1, 3, "interpolate"⟩ ⟨1, 4, some 2, 0⟩ ∧
    "interpolate" ∈ knownSolvers := by
  constructor
  · simp [dlmcFixed]
  · simp [knownSolvers]

end Discs
