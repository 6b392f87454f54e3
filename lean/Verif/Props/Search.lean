import Verif.Lemmas.Search
import Verif.Lemmas.Touch
import Verif.Lemmas.Trap
import Verif.Model.AnnealGWG
import Verif.Model.AnnealPAFS
import Verif.Props.AnnealGWG
import Verif.Props.PeriodicIff
import Verif.Model.Comb

/-!
# Property C115: a long search visits every sample

Annealed search keeps the best sample it has seen (C41).  What matters is not the law of the last sample but whether
an optimum is ever visited.
-/

namespace Discs

open Finset Spec Filter

variable {D : ℕ}

/-- From every sample to every sample by moves, in a bounded number of steps. -/
theorem exists_walk_bound {X : Type*} {S : Finset X} {R : X → X → Prop}
    (h : ∀ x ∈ S, ∀ y ∈ S, ∃ n, Walk S R n x y) : ∃ M, 0 < M ∧ ∀ x ∈ S, ∀ y ∈ S, ∃ m ≤ M, Walk S R m x y := by
  classical
  have h' : ∀ p : X × X, ∃ n, p.1 ∈ S → p.2 ∈ S → Walk S R n p.1 p.2 := by
    intro p
    by_cases h1 : p.1 ∈ S
    · by_cases h2 : p.2 ∈ S
      · obtain ⟨n, hn⟩ := h _ h1 _ h2
        exact ⟨n, fun _ _ => hn⟩
      · exact ⟨0, fun _ h => absurd h h2⟩
    · exact ⟨0, fun h => absurd h h1⟩
  choose n hn using h'
  refine ⟨(S ×ˢ S).sup n + 1, by omega, fun x hx y hy => ⟨n (x, y), ?_, hn (x, y) hx hy⟩⟩
  have := Finset.le_sup (f := n) (mem_product.2 ⟨hx, hy⟩ : (x, y) ∈ S ×ˢ S)
  omega

/-! ## Path auxiliary -/

/-- Every set of `k` sites is flipped with at least this probability. -/
theorem pafs_index_ge {name : String} {h : ℝ → ℝ} (hh : ∀ v, applyWeightLog name v = .ok (h v))
    {lr : (Fin D → ℤ) → Fin D → ℝ} {Λ : ℝ} {x : Fin D → ℤ} (hΛ : ∀ j, |lr x j| ≤ Λ) {k : ℕ} {idx : Fin k → Fin D}
    (hi : Function.Injective idx) (hD : 0 < D) :
    (Real.exp (-(2 * Λ)) / D) ^ k ≤ pafsIdxLaw (pafsLogProb h lr none x) idx := by
  have : Nonempty (Fin D) := ⟨⟨0, hD⟩⟩
  have hs := sum_exp_pafsLogProb hD h lr none x
  have hfl : ∀ j, Real.exp (-(2 * Λ)) / D ≤ Real.exp (pafsLogProb h lr none x j) := by
    intro j
    unfold pafsLogProb
    rw [exp_logSoftmax]
    have := softmax_ge (fun j => h (lr x j)) (r := 2 * Λ) j fun i => by
      refine (applyWeightLog_lip hh _ _).trans ((abs_sub _ _).trans ?_)
      linarith [hΛ i, hΛ j]
    simpa [applyMask] using this
  rw [pafsIdxLaw_prod hs hi]
  calc (Real.exp (-(2 * Λ)) / D) ^ k = ∏ _i : Fin k, Real.exp (-(2 * Λ)) / D := by
        rw [Finset.prod_const, Finset.card_univ, Fintype.card_fin]
    _ ≤ _ := Finset.prod_le_prod (fun _ _ => by positivity) fun i _ => ?_
  have h1 := remaining_pos hs hi (s := univ.filter (· < i)) (i := i) (by simp)
  have h2 : 0 ≤ ∑ j ∈ univ.filter (· < i), Real.exp (pafsLogProb h lr none x (idx j)) :=
    Finset.sum_nonneg fun _ _ => (Real.exp_pos _).le
  rw [le_div_iff₀ h1]
  have := hfl (idx i)
  have h3 : 0 ≤ Real.exp (-(2 * Λ)) / D := by positivity
  nlinarith

/-- A subset of `k` sites as a list of indices. -/
theorem exists_idx {k : ℕ} (A : Finset (Fin D)) (hA : A.card = k) (x : Fin D → ℤ) :
    ∃ idx : Fin k → Fin D, Function.Injective idx ∧ gwgPropose x idx = flipSet x A := by
  refine ⟨A.orderEmbOfFin hA, (A.orderEmbOfFin hA).injective, funext fun j => ?_⟩
  unfold gwgPropose flipSet
  have : (∃ i, A.orderEmbOfFin hA i = j) ↔ j ∈ A := by
    have := Finset.range_orderEmbOfFin A hA
    rw [← Finset.mem_coe, ← this]; rfl
  simp only [this]

theorem flipSet_ne {x : Fin D → ℤ} (hx : x ∈ validStates 2 D) {A : Finset (Fin D)} (hA : 0 < A.card) :
    x ≠ flipSet x A := by
  obtain ⟨j, hj⟩ := Finset.card_pos.1 hA
  intro e
  have e' := congrFun e j
  unfold flipSet at e'
  rw [if_pos hj] at e'
  have := mem_validStates_two.1 hx j
  omega

/-- The moves of an odd number of flips below `dim` connect all samples. -/
theorem flipSet_reach_all {k : ℕ} (hodd : Odd k) (hk : k < D ∨ D = 1 ∧ k = 1) :
    ∀ x ∈ validStates 2 D, ∀ y ∈ validStates 2 D,
      ∃ n, Walk (validStates 2 D) (fun a b => ∃ A : Finset (Fin D), A.card = k ∧ b = flipSet a A) n x y := by
  rcases hk with hk | ⟨-, rfl⟩
  · exact flipSet_reach hodd hk
  · intro x hx y hy
    refine ⟨_, Walk.sites mix_valid (fun a ha b hb => ?_) x hx y hy⟩
    rintro ⟨i, h3, h4⟩
    refine ⟨{i}, by simp, funext fun j => ?_⟩
    have ha' := mem_validStates_two.1 ha i
    have hb' := mem_validStates_two.1 hb i
    unfold flipSet
    by_cases hj : j = i
    · subst hj; rw [if_pos (mem_singleton_self _)]; omega
    · rw [if_neg (by simpa using hj), h4 j hj]

/-- A step flips any given `k` sites with at least this probability. -/
theorem pafs_flip_ge {k : ℕ} (hk : 0 < k) (hkD : k ≤ D) {name : String} {h : ℝ → ℝ}
    (hh : ∀ v, applyWeightLog name v = .ok (h v)) {f : (Fin D → ℤ) → ℝ} {lr : (Fin D → ℤ) → Fin D → ℝ} (s : LBState)
    {Λ R tiny : ℝ} (ht : 0 ≤ tiny) (hΛ : ∀ x ∈ validStates 2 D, ∀ j, |lr x j| ≤ Λ)
    (hR : ∀ x ∈ validStates 2 D, ∀ y ∈ validStates 2 D, f x - f y ≤ R) {a : Fin D → ℤ} (ha : a ∈ validStates 2 D)
    {A : Finset (Fin D)} (hA : A.card = k) :
    (Real.exp (-(2 * Λ)) / D) ^ k * Real.exp (-R) - tiny ≤ pafsBinaryKernel k tiny h f lr none s a (flipSet a A) := by
  have hD : 0 < D := by omega
  have hD' : (0 : ℝ) < D := by exact_mod_cast hD
  have hR0 : 0 ≤ R := by have := hR a ha a ha; linarith
  have hr1 : Real.exp (-R) ≤ 1 := Real.exp_le_one_iff.2 (by linarith)
  have hb := flipSet_valid ha A
  obtain ⟨idx, hi, he⟩ := exists_idx A hA a
  have e := (pafs_isMH k tiny h f lr none s).lawU_eq ht
    (fun x => pafsIdxLaw (pafsLogProb h lr none x)) a ha (flipSet a A)
  refine le_trans ?_ e.ge
  refine (pafs_pathMH hD hkD h f lr none).move_ge (by positivity) hr1 ht ha hb ?_
    ⟨idx, he, pafs_index_ge hh (hΛ a ha) hi hD,
      pafs_index_ge hh (hΛ _ hb) (fun _ _ h => Fin.rev_injective (hi h)) hD⟩
    (flipSet_ne ha (by rw [hA]; exact hk))
  rw [← Real.exp_add]
  exact Real.exp_le_exp.2 (by linarith [hR a ha _ hb])

/-- **C115 (path auxiliary, odd number of flips).** With an odd number of flips per step that is below the number of
sites, a run visits every sample: the probability that it has not visited `y` shrinks geometrically.  The energy and
the scores of the sites may change from step to step (annealing); `R` bounds the differences of energies and `Λ` the
scores.  The number `M` depends only on the dimension and the number of flips. -/
theorem pafs_visits {k : ℕ} (hodd : Odd k) (hk : k < D ∨ D = 1 ∧ k = 1) :
    ∃ M, 0 < M ∧ ∀ {name : String} {h : ℝ → ℝ}, (∀ v, applyWeightLog name v = .ok (h v)) →
      ∀ (f : ℕ → (Fin D → ℤ) → ℝ) (lr : ℕ → (Fin D → ℤ) → Fin D → ℝ) (s : ℕ → LBState) (n : ℕ) {Λ R tiny : ℝ},
      0 ≤ tiny → 0 ≤ Λ → 0 ≤ R → (∀ t < n, ∀ x ∈ validStates 2 D, ∀ j, |lr t x j| ≤ Λ) →
      (∀ t < n, ∀ x ∈ validStates 2 D, ∀ y ∈ validStates 2 D, f t x - f t y ≤ R) →
      tiny ≤ (Real.exp (-(2 * Λ)) / D) ^ k * Real.exp (-R) →
      ∀ x ∈ validStates 2 D, ∀ y ∈ validStates 2 D, ∀ Y, y ∈ Y →
        avoid (validStates 2 D) (fun t => pafsBinaryKernel k tiny h (f t) (lr t) none (s t)) Y n 0 x ≤
          (1 - ((Real.exp (-(2 * Λ)) / D) ^ k * Real.exp (-R) - tiny) ^ M) ^ (n / M) := by
  obtain ⟨M, hM, hw⟩ := exists_walk_bound (flipSet_reach_all hodd hk)
  have hD : 0 < D := by omega
  have hkD : k ≤ D := by omega
  have hD' : (1 : ℝ) ≤ D := by exact_mod_cast hD
  refine ⟨M, hM, fun {name h} hh f lr s n {Λ R tiny} ht hΛ0 hR0 hΛ hR hδ x hx y hy Y hyY => ?_⟩
  have hp1 : Real.exp (-(2 * Λ)) / D ≤ 1 := by
    rw [div_le_one (by linarith)]
    exact (Real.exp_le_one_iff.2 (by linarith)).trans hD'
  have hr1 : Real.exp (-R) ≤ 1 := Real.exp_le_one_iff.2 (by linarith)
  have ha1 : (Real.exp (-(2 * Λ)) / D) ^ k ≤ 1 := pow_le_one₀ (by positivity) hp1
  refine avoid_le_of_walk (fun t => pafs_stochastic hD hkD ht h (f t) (lr t) none (s t)) (by linarith) ?_
    (R := fun a b => ∃ A : Finset (Fin D), A.card = k ∧ b = flipSet a A) ?_ hy hyY (fun x hx => hw x hx y hy) (n / M) n
    (Nat.div_mul_le_self n M) 0 (zero_add n).le x hx
  · have := mul_le_one₀ ha1 (Real.exp_pos (-R)).le hr1
    linarith
  · rintro t htn a ha b hb ⟨A, hA, rfl⟩
    exact pafs_flip_ge hodd.pos hkD hh (s t) ht (hΛ t htn) (hR t htn) ha hA

/-- An even number of flips keeps the parity. -/
theorem pafs_even_step {k : ℕ} (hev : Even k) {tiny : ℝ} (ht : 0 ≤ tiny) (h : ℝ → ℝ) (f : (Fin D → ℤ) → ℝ)
    (lr : (Fin D → ℤ) → Fin D → ℝ) (mask : Option (Fin D → ℝ)) {z : Fin D → ℤ} (hz : z ∈ validStates 2 D)
    {w : Fin D → ℤ} (hne : signProd w ≠ signProd z) :
    lawU (pafsIdxLaw (k := k) (pafsLogProb h lr mask z)) (mhMove tiny gwgPropose (pafsLogAcc h f lr mask) z) w = 0 := by
  have e := (isMH_mhMove (validStates 2 D) tiny (gwgPropose (k := k)) (pafsLogAcc h f lr mask)).lawU_eq ht
    (fun x => pafsIdxLaw (pafsLogProb h lr mask x)) z hz w
  refine e.trans (Finset.sum_eq_zero fun idx _ => ?_)
  beta_reduce
  by_cases hq : pafsIdxLaw (pafsLogProb h lr mask z) idx = 0
  · rw [hq, zero_mul]
  · have hfl := pafs_flips hq z hz
    have hp := signProd_diff hz (gwgPropose_valid hz idx)
    rw [hfl, hev.neg_one_pow, one_mul] at hp
    have h1 : gwgPropose z idx ≠ w := fun hh => hne (hh ▸ hp)
    have h2 : z ≠ w := fun hh => hne (by rw [hh])
    rw [if_neg h1, if_neg h2, add_zero, mul_zero]

theorem pafsBinaryKernel_eq (k : ℕ) {tiny : ℝ} (ht : 0 ≤ tiny) (h : ℝ → ℝ) (f : (Fin D → ℤ) → ℝ)
    (lr : (Fin D → ℤ) → Fin D → ℝ) (mask : Option (Fin D → ℝ)) (s : LBState) {x : Fin D → ℤ} (hx : x ∈ validStates 2 D)
    (y : Fin D → ℤ) :
    pafsBinaryKernel k tiny h f lr mask s x y =
      lawU (pafsIdxLaw (k := k) (pafsLogProb h lr mask x)) (mhMove tiny gwgPropose (pafsLogAcc h f lr mask) x) y :=
  ((pafs_isMH k tiny h f lr mask s).lawU_eq ht (fun x => pafsIdxLaw (pafsLogProb h lr mask x)) x hx y).trans
    ((isMH_mhMove (validStates 2 D) tiny (gwgPropose (k := k)) (pafsLogAcc h f lr mask)).lawU_eq ht
      (fun x => pafsIdxLaw (pafsLogProb h lr mask x)) x hx y).symm

/-- **C115 is false of the code (even number of flips).** Whatever the model, the schedule and the length of the run,
with an even number of flips a sample at an odd distance from the start is
never visited. -/
theorem pafs_even_misses {k : ℕ} (hD : 0 < D) (hk : k ≤ D) (hev : Even k) {tiny : ℝ} (ht : 0 ≤ tiny) (h : ℝ → ℝ)
    (f : ℕ → (Fin D → ℤ) → ℝ) (lr : ℕ → (Fin D → ℤ) → Fin D → ℝ) (mask : Option (Fin D → ℝ)) (s : ℕ → LBState)
    {x : Fin D → ℤ} (hx : x ∈ validStates 2 D) {Y : Finset (Fin D → ℤ)} (hY : ∀ y ∈ Y, y ∈ validStates 2 D)
    (hodd : ∀ y ∈ Y, Odd (univ.filter fun j => y j ≠ x j).card) (n : ℕ) :
    avoid (validStates 2 D) (fun t => pafsBinaryKernel k tiny h (f t) (lr t) mask (s t)) Y n 0 x = 1 := by
  refine avoid_eq_one (fun t => pafs_stochastic hD hk ht h (f t) (lr t) mask (s t))
    (T := fun z => signProd z = signProd x) (fun t z hz hTz w _ hTw => ?_) ?_ n 0 x hx rfl
  · rw [pafsBinaryKernel_eq k ht h _ _ _ _ hz]
    exact pafs_even_step hev ht h _ _ _ hz fun e => hTw (e.trans hTz)
  · intro y hy
    rw [signProd_diff hx (hY y hy), (hodd y hy).neg_one_pow]
    intro e
    have h0 : signProd x = 0 := by linarith
    have h1 := signProd_abs hx
    rw [h0, abs_zero] at h1
    exact zero_ne_one h1

/-- **C115 is false of the code (adaptive, even radii).** The same for adaptive runs as long as the radius rounds to an
even number. -/
theorem pafsAdaptive_even_misses (hD : 0 < D) (tgt : ℝ) {tiny : ℝ} (ht : 0 ≤ tiny) (h : ℝ → ℝ)
    (f : ℕ → (Fin D → ℤ) → ℝ) (lr : ℕ → (Fin D → ℤ) → Fin D → ℝ) (mask : Option (Fin D → ℝ)) (s : ℕ → LBState)
    (hev : ∀ t, Even (numFlips D (s t).radius)) {x : Fin D → ℤ} (hx : x ∈ validStates 2 D)
    {Y : Finset (Fin D → ℤ)} (hY : ∀ y ∈ Y, y ∈ validStates 2 D)
    (hodd : ∀ y ∈ Y, Odd (univ.filter fun j => y j ≠ x j).card) (n : ℕ) :
    avoid (validStates 2 D) (fun t => pafsAdaptiveKernel tgt tiny h (f t) (lr t) mask (s t)) Y n 0 x = 1 := by
  refine avoid_eq_one (fun t => pafsAdaptive_stochastic hD tgt ht h (f t) (lr t) mask (s t))
    (T := fun z => signProd z = signProd x) (fun t z hz hTz w _ hTw => ?_) ?_ n 0 x hx rfl
  · rw [pafsAdaptiveKernel_eq hD]
    exact pafs_even_step (hev t) ht h _ _ _ hz fun e => hTw (e.trans hTz)
  · intro y hy
    rw [signProd_diff hx (hY y hy), (hodd y hy).neg_one_pow]
    intro e
    have h0 : signProd x = 0 := by linarith
    have h1 := signProd_abs hx
    rw [h0, abs_zero] at h1
    exact zero_ne_one h1

/-- **C115 is false of the code (all sites).** With as many flips as sites a run only ever sees its start and the
complement of it. -/
theorem pafs_all_misses (hD : 0 < D) {tiny : ℝ} (ht : 0 ≤ tiny) (h : ℝ → ℝ)
    (f : ℕ → (Fin D → ℤ) → ℝ) (lr : ℕ → (Fin D → ℤ) → Fin D → ℝ) (mask : Option (Fin D → ℝ)) (s : ℕ → LBState)
    {x : Fin D → ℤ} (hx : x ∈ validStates 2 D) {Y : Finset (Fin D → ℤ)} (h1 : x ∉ Y) (h2 : complement x ∉ Y) (n : ℕ) :
    avoid (validStates 2 D) (fun t => pafsBinaryKernel D tiny h (f t) (lr t) mask (s t)) Y n 0 x = 1 := by
  refine avoid_eq_one (fun t => pafs_stochastic hD le_rfl ht h (f t) (lr t) mask (s t))
    (T := fun z => z = x ∨ z = complement x) (fun t z hz hTz w hw hTw => ?_) (by rintro y hy (rfl | rfl) <;> tauto) n 0 x hx (Or.inl rfl)
  have e := (pafs_isMH D tiny h (f t) (lr t) mask (s t)).lawU_eq ht
    (fun x => pafsIdxLaw (pafsLogProb h (lr t) mask x)) z hz w
  refine e.trans (Finset.sum_eq_zero fun idx _ => ?_)
  beta_reduce
  by_cases hq : pafsIdxLaw (pafsLogProb h (lr t) mask z) idx = 0
  · rw [hq, zero_mul]
  · have hs := Finite.surjective_of_injective (pafsIdxLaw_ne_zero hq)
    have hfl : gwgPropose z idx = complement z := funext fun j => if_pos (hs j)
    have h1 : gwgPropose z idx ≠ w := by
      rw [hfl]
      rintro rfl
      rcases hTz with rfl | rfl
      · exact hTw (Or.inr rfl)
      · exact hTw (Or.inl (complement_complement x))
    have h2 : z ≠ w := fun hh => hTw (hh ▸ hTz)
    rw [if_neg h1, if_neg h2, add_zero, mul_zero]

/-- **C115 (path auxiliary, both directions).** Every long run visits every sample if and only if the number of flips is
odd and below the number of sites (or both are one). -/
theorem pafs_visits_iff (hD : 0 < D) {k : ℕ} (hk : k ≤ D) {name : String} {h : ℝ → ℝ}
    (hh : ∀ v, applyWeightLog name v = .ok (h v)) (f : ℕ → (Fin D → ℤ) → ℝ) (lr : ℕ → (Fin D → ℤ) → Fin D → ℝ)
    (s : ℕ → LBState) {Λ R tiny : ℝ} (ht : 0 ≤ tiny) (hΛ : ∀ t, ∀ x ∈ validStates 2 D, ∀ j, |lr t x j| ≤ Λ)
    (hR : ∀ t, ∀ x ∈ validStates 2 D, ∀ y ∈ validStates 2 D, f t x - f t y ≤ R)
    (hδ : tiny < (Real.exp (-(2 * Λ)) / D) ^ k * Real.exp (-R)) :
    (∀ x ∈ validStates 2 D, ∀ y ∈ validStates 2 D, Tendsto (fun n =>
      avoid (validStates 2 D) (fun t => pafsBinaryKernel k tiny h (f t) (lr t) none (s t)) {y} n 0 x) atTop (nhds 0)) ↔
      Odd k ∧ (k < D ∨ D = 1) := by
  constructor
  · intro H
    let x : Fin D → ℤ := fun _ => 0
    let y : Fin D → ℤ := fun j => if j = ⟨0, hD⟩ then 1 else 0
    have hx : x ∈ validStates 2 D := by rw [mem_validStates_two]; intro j; left; rfl
    have hy : y ∈ validStates 2 D := by
      rw [mem_validStates_two]; intro j; dsimp only [y]; split_ifs <;> simp
    have hcard : (univ.filter fun j => y j ≠ x j).card = 1 := by
      rw [Finset.card_eq_one]
      exact ⟨⟨0, hD⟩, by ext j; simp [x, y]⟩
    have hno : ¬ ∀ n, avoid (validStates 2 D) (fun t => pafsBinaryKernel k tiny h (f t) (lr t) none (s t)) {y} n 0 x = 1 := by
      intro hc
      have := H x hx y hy
      simp only [hc] at this
      exact one_ne_zero (tendsto_nhds_unique tendsto_const_nhds this)
    by_contra hc
    refine hno fun n => ?_
    by_cases hev : Even k
    · exact pafs_even_misses hD hk hev ht h f lr none s hx (Y := {y}) (by simpa using hy)
        (by simp [hcard]) n
    · rw [Nat.not_even_iff_odd] at hev
      push Not at hc
      obtain ⟨hc1, hc2⟩ := hc hev
      obtain rfl : k = D := by omega
      refine pafs_all_misses hD ht h f lr none s hx (Y := {y}) (fun e => ?_) (fun e => ?_) n
      · rw [mem_singleton] at e; simp [x, y] at e; exact absurd (congrFun e ⟨0, hD⟩) (by simp)
      · rw [mem_singleton] at e
        have := congrFun e ⟨1, by omega⟩
        simp [x, y, complement] at this
  · rintro ⟨hodd, hlt⟩ x hx y hy
    obtain ⟨M, hM, hb⟩ := pafs_visits (D := D) hodd (hlt.imp id fun e => ⟨e, by have := hodd.pos; omega⟩)
    have hstoch := fun t => pafs_stochastic hD hk ht h (f t) (lr t) none (s t)
    set δ := (Real.exp (-(2 * Λ)) / D) ^ k * Real.exp (-R) - tiny with hδ'
    have hδ0 : 0 < δ := by linarith
    have h0 : ∀ n, 0 ≤ avoid (validStates 2 D) (fun t => pafsBinaryKernel k tiny h (f t) (lr t) none (s t)) {y} n 0 x :=
      fun n => avoid_nonneg hstoch n 0 x hx
    have hle := fun n => hb hh f lr s n ht ((abs_nonneg _).trans (hΛ 0 x hx ⟨0, hD⟩))
      (by have := hR 0 x hx x hx; linarith) (fun t _ => hΛ t) (fun t _ => hR t) hδ.le x hx y hy {y} (mem_singleton_self y)
    have hc0 : 0 ≤ 1 - δ ^ M := by
      have h1 := (h0 M).trans (hle M)
      rwa [Nat.div_self hM, pow_one] at h1
    have hlim : Tendsto (fun n => (1 - δ ^ M) ^ (n / M)) atTop (nhds 0) :=
      (tendsto_pow_atTop_nhds_zero_of_lt_one hc0 (by have := pow_pos hδ0 M; linarith)).comp
        (Nat.tendsto_div_const_atTop hM.ne')
    exact tendsto_of_tendsto_of_tendsto_of_le_of_le tendsto_const_nhds hlim h0 hle

/-! ## GWG -/

theorem annealEnergy_diff {obj pen : (Fin D → ℤ) → ℝ} {temp : ℕ → ℝ} {R Tm : ℝ}
    (hR : ∀ x ∈ validStates 2 D, ∀ y ∈ validStates 2 D, (obj x - pen x) - (obj y - pen y) ≤ R) (hTm : 0 < Tm)
    {t : ℕ} (hlow : Tm ≤ temp (t + 1)) : ∀ x ∈ validStates 2 D, ∀ y ∈ validStates 2 D,
      annealEnergy obj pen temp t x - annealEnergy obj pen temp t y ≤ R / Tm := by
  intro x hx y hy
  have hR0 : 0 ≤ R := by have := hR x hx x hx; linarith
  unfold annealEnergy combForward
  rw [one_mul, ← sub_div]
  exact (div_le_div_of_nonneg_right (hR x hx y hy) (hTm.trans_le hlow).le).trans
    (div_le_div_of_nonneg_left hR0 hTm hlow)

/-- A step of annealed GWG makes a move with at least this probability if some draw proposes it. -/
theorem gwgAnneal_move_ge (hD : 0 < D) {k : ℕ} {name : String} {h : ℝ → ℝ}
    (hh : ∀ v, applyWeightLog name v = .ok (h v)) {obj pen : (Fin D → ℤ) → ℝ} {g : (Fin D → ℤ) → Fin D → ℝ}
    {temp : ℕ → ℝ} (s : ℕ → LBState) {R G Tm tiny : ℝ} (ht : 0 ≤ tiny)
    (hR : ∀ x ∈ validStates 2 D, ∀ y ∈ validStates 2 D, (obj x - pen x) - (obj y - pen y) ≤ R)
    (hG : ∀ x ∈ validStates 2 D, ∀ j, |g x j| ≤ G) (hTm : 0 < Tm) {t : ℕ} (hlow : Tm ≤ temp (t + 1))
    {a b : Fin D → ℤ} (ha : a ∈ validStates 2 D) (hb : b ∈ validStates 2 D) (hne : a ≠ b) (idx : Fin k → Fin D)
    (he : gwgPropose a idx = b) :
    (Real.exp (-(2 * G / Tm)) / D) ^ k * Real.exp (-(R / Tm)) - tiny ≤
      gwgAnneal k tiny h obj pen g temp s t a b := by
  have hD' : (0 : ℝ) < D := by exact_mod_cast hD
  have hR0 : 0 ≤ R := by have := hR a ha a ha; linarith
  have hr1 : Real.exp (-(R / Tm)) ≤ 1 := Real.exp_le_one_iff.2 (by have := div_nonneg hR0 hTm.le; linarith)
  have hpos : ∀ z ∈ validStates 2 D, (Real.exp (-(2 * G / Tm)) / D) ^ k ≤
      gwgDrawLaw h (annealGrad g temp t) none z idx := by
    intro z hz
    unfold gwgDrawLaw
    calc (Real.exp (-(2 * G / Tm)) / D) ^ k = ∏ _i : Fin k, Real.exp (-(2 * G / Tm)) / D := by
          rw [Finset.prod_const, Finset.card_univ, Fintype.card_fin]
      _ ≤ _ := Finset.prod_le_prod (fun _ _ => by positivity) fun i _ => gwg_index_ge hh hG hTm hlow hz (idx i)
  have e := (gwg_isMH k tiny h (annealEnergy obj pen temp t) (annealGrad g temp t) none (s t)).lawU_eq ht
    (gwgDrawLaw h (annealGrad g temp t) none) a ha b
  refine le_trans ?_ e.ge
  refine (gwg_pathMH hD k h (annealEnergy obj pen temp t) (annealGrad g temp t) none).move_ge (by positivity) hr1 ht
    ha hb ?_ ⟨idx, he, hpos a ha, hpos b hb⟩ hne
  rw [← Real.exp_add]
  exact Real.exp_le_exp.2 (by linarith [annealEnergy_diff hR hTm hlow a ha b hb])

/-- A single site is flipped if it is drawn every time. -/
theorem gwgPropose_site {k : ℕ} (hk : 0 < k) {a b : Fin D → ℤ} (ha : a ∈ validStates 2 D) (hb : b ∈ validStates 2 D)
    {i : Fin D} (hi : b i ≠ a i) (hj : ∀ j, j ≠ i → b j = a j) : gwgPropose a (fun _ : Fin k => i) = b := by
  funext j
  unfold gwgPropose
  by_cases hji : i = j
  · subst hji
    rw [if_pos ⟨⟨0, hk⟩, rfl⟩]
    have ha' := mem_validStates_two.1 ha i
    have hb' := mem_validStates_two.1 hb i
    omega
  · rw [if_neg (fun ⟨_, e⟩ => hji e), hj j (Ne.symm hji)]

/-- **C115 (GWG).** With any number of flips per step of at least one, GWG visits every sample: drawing the same site
every time flips a single site. -/
theorem gwg_visits (hD : 0 < D) {k : ℕ} (hk : 0 < k) {name : String} {h : ℝ → ℝ}
    (hh : ∀ v, applyWeightLog name v = .ok (h v)) (obj pen : (Fin D → ℤ) → ℝ) {g : (Fin D → ℤ) → Fin D → ℝ}
    (temp : ℕ → ℝ) (s : ℕ → LBState) {R G Tm tiny : ℝ} (ht : 0 ≤ tiny)
    (hR : ∀ x ∈ validStates 2 D, ∀ y ∈ validStates 2 D, (obj x - pen x) - (obj y - pen y) ≤ R)
    (hG : ∀ x ∈ validStates 2 D, ∀ j, |g x j| ≤ G) (hTm : 0 < Tm) (n : ℕ)
    (hlow : ∀ t < n, Tm ≤ temp (t + 1))
    (hδ : tiny ≤ (Real.exp (-(2 * G / Tm)) / D) ^ k * Real.exp (-(R / Tm))) {x y : Fin D → ℤ}
    (hx : x ∈ validStates 2 D) (hy : y ∈ validStates 2 D) {Y : Finset (Fin D → ℤ)} (hyY : y ∈ Y) :
    avoid (validStates 2 D) (gwgAnneal k tiny h obj pen g temp s) Y n 0 x ≤
      (1 - ((Real.exp (-(2 * G / Tm)) / D) ^ k * Real.exp (-(R / Tm)) - tiny) ^ D) ^ (n / D) := by
  have hG0 := gwgGrad_nonneg hD hG
  have hp1 : Real.exp (-(2 * G / Tm)) / D ≤ 1 := gwgFloor_le_one hD hG0 hTm
  have hR0 : 0 ≤ R := by have := hR x hx x hx; linarith
  have hr1 : Real.exp (-(R / Tm)) ≤ 1 := Real.exp_le_one_iff.2 (by have := div_nonneg hR0 hTm.le; linarith)
  have hD' : (0 : ℝ) < D := by exact_mod_cast hD
  have ha1 : (Real.exp (-(2 * G / Tm)) / D) ^ k ≤ 1 := pow_le_one₀ (by positivity) hp1
  refine avoid_le_of_walk (fun t => gwg_stochastic hD k ht h _ _ none (s t)) (by linarith) ?_
    (R := fun a b => ∃ i, b i ≠ a i ∧ ∀ j, j ≠ i → b j = a j) ?_ hy hyY (fun x hx => ⟨_, ?_,
      Walk.sites mix_valid (fun _ _ _ _ h => h) x hx y hy⟩) (n / D) n (Nat.div_mul_le_self n D) 0 (zero_add n).le x hx
  · have := mul_le_one₀ ha1 (Real.exp_pos (-(R / Tm))).le hr1
    linarith
  · rintro t htn a ha b hb ⟨i, hi, hj⟩
    exact gwgAnneal_move_ge hD hh s ht hR hG hTm (hlow t htn) ha hb (fun e => hi (by rw [e])) _ (gwgPropose_site hk ha hb hi hj)
  · exact (Finset.card_filter_le _ _).trans (by simp)

/-! ## Annealed combinatorial search with path auxiliary -/

theorem annealScore_le {g : (Fin D → ℤ) → Fin D → ℝ} {temp : ℕ → ℝ} {G Tm : ℝ}
    (hG : ∀ x ∈ validStates 2 D, ∀ j, |g x j| ≤ G) (hTm : 0 < Tm) {t : ℕ} (hlow : Tm ≤ temp (t + 1)) :
    ∀ x ∈ validStates 2 D, ∀ j, |(1 - 2 * (x j : ℝ)) * annealGrad g temp t x j| ≤ G / Tm := by
  intro x hx j
  have hT0 : 0 < temp (t + 1) := hTm.trans_le hlow
  have h1 : |1 - 2 * (x j : ℝ)| = 1 := by
    rcases mem_validStates_two.1 hx j with h | h <;> rw [h] <;> norm_num
  rw [abs_mul, h1, one_mul]
  unfold annealGrad
  rw [one_mul, abs_div, abs_of_pos hT0]
  exact (div_le_div_of_nonneg_right (hG x hx j) hT0.le).trans
    (div_le_div_of_nonneg_left ((abs_nonneg _).trans (hG x hx j)) hTm hlow)

/-- **C115 (annealed search with the path auxiliary sampler).** With an odd number of flips below the number of sites
the probability that a run of `n` steps has seen no optimum shrinks geometrically in `n`. -/
theorem pafs_search {k : ℕ} (hodd : Odd k) (hk : k < D ∨ D = 1 ∧ k = 1) :
    ∃ M, 0 < M ∧ ∀ {name : String} {h : ℝ → ℝ}, (∀ v, applyWeightLog name v = .ok (h v)) →
      ∀ (obj pen : (Fin D → ℤ) → ℝ) (g : (Fin D → ℤ) → Fin D → ℝ) (temp : ℕ → ℝ) (s : ℕ → LBState) (n : ℕ)
      {R G Tm tiny : ℝ}, 0 ≤ tiny →
      (∀ x ∈ validStates 2 D, ∀ y ∈ validStates 2 D, (obj x - pen x) - (obj y - pen y) ≤ R) →
      (∀ x ∈ validStates 2 D, ∀ j, |g x j| ≤ G) → 0 < Tm → (∀ t < n, Tm ≤ temp (t + 1)) →
      tiny ≤ (Real.exp (-(2 * (G / Tm))) / D) ^ k * Real.exp (-(R / Tm)) → ∀ x ∈ validStates 2 D,
        avoid (validStates 2 D) (pafsAnneal k tiny h obj pen g temp s)
            (optima (validStates 2 D) fun x => obj x - pen x) n 0 x ≤
          (1 - ((Real.exp (-(2 * (G / Tm))) / D) ^ k * Real.exp (-(R / Tm)) - tiny) ^ M) ^ (n / M) := by
  obtain ⟨M, hM, H⟩ := pafs_visits (D := D) hodd hk
  refine ⟨M, hM, fun {name h} hh obj pen g temp s n {R G Tm tiny} ht hR hG hTm hlow hδ x hx => ?_⟩
  obtain ⟨y, hy, hmax⟩ := Finset.exists_max_image (validStates 2 D) (fun x => obj x - pen x) ⟨x, hx⟩
  have hD : 0 < D := by omega
  refine H hh _ _ s n ht (div_nonneg ((abs_nonneg _).trans (hG x hx ⟨0, hD⟩)) hTm.le)
    (div_nonneg (by have := hR x hx x hx; linarith) hTm.le) (fun t htn => annealScore_le hG hTm (hlow t htn))
    (fun t htn => annealEnergy_diff hR hTm (hlow t htn)) hδ x hx y hy _ ?_
  classical
  exact mem_filter.2 ⟨hy, hmax⟩

/-- A star: vertex `0` joined to each of `N` leaves. -/
def starGraph (N : ℕ) : EdgeArrays N N where
  edgeFrom _ := 0
  edgeTo i := i.succ
  edgeMask _ := 1
  edgeWeight _ := 1
  numEdges := N

/-- The maximum cut of a star separates the centre from every leaf. -/
theorem star_optimum {N : ℕ} {y : Fin (N + 1) → ℤ}
    (hy : y ∈ optima (validStates 2 (N + 1)) fun x => maxcutObjective (starGraph N) fun j => (x j : ℝ)) (i : Fin N) :
    y i.succ = 1 - y 0 := by
  classical
  rw [optima, mem_filter] at hy
  obtain ⟨hv, hmax⟩ := hy
  have h0 := mem_validStates_two.1 hv
  let z : Fin (N + 1) → ℤ := fun j => if j = 0 then 1 else 0
  have hz := hmax z (mem_validStates_two.2 fun j => by dsimp only [z]; split_ifs <;> simp)
  have e1 : maxcutObjective (starGraph N) (fun j => (z j : ℝ)) = N := by
    simp [maxcutObjective, starGraph, z, Fin.succ_ne_zero]
  rw [e1] at hz
  by_contra hne
  have hterm : ∀ j : Fin N, (1 - ((y 0 : ℝ) * 2 - 1) * ((y j.succ : ℝ) * 2 - 1)) / 2 ≤ 1 := by
    intro j
    rcases h0 0 with h | h <;> rcases h0 j.succ with h' | h' <;> rw [h, h'] <;> norm_num
  have hlt : (1 - ((y 0 : ℝ) * 2 - 1) * ((y i.succ : ℝ) * 2 - 1)) / 2 < 1 := by
    rcases h0 0 with h | h <;> rcases h0 i.succ with h' | h' <;> rw [h, h'] at hne ⊢ <;>
      first | (norm_num; done) | exact absurd (by norm_num) hne
  have : ∑ j : Fin N, (1 - ((y 0 : ℝ) * 2 - 1) * ((y j.succ : ℝ) * 2 - 1)) / 2 < ∑ _j : Fin N, (1 : ℝ) :=
    Finset.sum_lt_sum (fun j _ => hterm j) ⟨i, mem_univ i, hlt⟩
  simp only [maxcutObjective, starGraph, mul_one] at hz
  rw [Finset.sum_const, Finset.card_univ, Fintype.card_fin, nsmul_eq_mul, mul_one] at this
  linarith

/-- An odd number of leaves: the maximum cuts are at an odd distance from the all-zero sample. -/
theorem star_optimum_odd {N : ℕ} (hN : Odd N) {y : Fin (N + 1) → ℤ}
    (hy : y ∈ optima (validStates 2 (N + 1)) fun x => maxcutObjective (starGraph N) fun j => (x j : ℝ)) :
    Odd (univ.filter fun j => y j ≠ 0).card := by
  have hv := mem_validStates_two.1 (mem_optima.1 hy).1
  have hs := star_optimum hy
  rcases hv 0 with h0 | h0
  · have : (univ.filter fun j => y j ≠ 0) = univ.erase 0 := by
      ext j
      refine Fin.cases ?_ (fun i => ?_) j
      · simp [h0]
      · simp [hs i, h0, Fin.succ_ne_zero]
    rw [this, Finset.card_erase_of_mem (mem_univ _), Finset.card_univ, Fintype.card_fin]
    simpa using hN
  · have : (univ.filter fun j => y j ≠ 0) = {0} := by
      ext j
      refine Fin.cases ?_ (fun i => ?_) j
      · simp [h0]
      · simp [hs i, h0, Fin.succ_ne_zero]
    rw [this, Finset.card_singleton]
    exact odd_one

/-- **C115 is false of the code (Max-Cut).** On a star with an odd number of leaves, from the all-zero sample, a search
with an even number of flips per step never sees a maximum cut, whatever the schedule and however long it runs. -/
theorem pafs_star_misses {N k : ℕ} (hN : Odd N) (hk : k ≤ N + 1) (hev : Even k) {tiny : ℝ} (ht : 0 ≤ tiny) (h : ℝ → ℝ)
    (g : (Fin (N + 1) → ℤ) → Fin (N + 1) → ℝ) (temp : ℕ → ℝ) (s : ℕ → LBState) (n : ℕ) :
    avoid (validStates 2 (N + 1))
      (pafsAnneal k tiny h (fun x => maxcutObjective (starGraph N) fun j => (x j : ℝ)) noPenalty g temp s)
      (optima (validStates 2 (N + 1)) fun x => maxcutObjective (starGraph N) fun j => (x j : ℝ)) n 0 (fun _ => 0) =
        1 := by
  classical
  refine pafs_even_misses (Nat.succ_pos N) hk hev ht h _ _ none s (mem_validStates_two.2 fun _ => Or.inl rfl)
    (fun y hy => (mem_filter.1 hy).1) (fun y hy => star_optimum_odd hN hy) n

/-! ## Examples -/

/-- One flip per step on two sites: a run of the annealed sampler sees the optimum in the end. -/
example (s : ℕ → LBState) {x : Fin 2 → ℤ} (hx : x ∈ validStates 2 2) : ∃ M, 0 < M ∧ ∃ δ > (0 : ℝ), ∀ n,
    avoid (validStates 2 2) (pafsAnneal 1 0 (· / 2) (fun x => (x 0 : ℝ) + x 1) (fun _ => 0) (fun _ _ => 1)
      (fun _ => 1) s) (optima (validStates 2 2) fun x => (x 0 : ℝ) + x 1 - 0) n 0 x ≤ (1 - δ ^ M) ^ (n / M) := by
  obtain ⟨M, hM, H⟩ := pafs_search (D := 2) (k := 1) odd_one (Or.inl (by norm_num))
  refine ⟨M, hM, _, ?_, fun n => H (name := "SQRT") (h := (· / 2)) (fun v => by simp [applyWeightLog]) _ _ _ _ s
    n (R := 2) (G := 1) (Tm := 1) (tiny := 0) le_rfl ?_ (by simp) one_pos (fun _ _ => le_rfl) (by positivity) x hx⟩
  · rw [sub_zero]; positivity
  · intro x hx y hy
    have hx' := mem_validStates_two.1 hx
    have hy' := mem_validStates_two.1 hy
    rcases hx' 0 with a | a <;> rcases hx' 1 with b | b <;> rcases hy' 0 with c | c <;> rcases hy' 1 with d | d <;>
      rw [a, b, c, d] <;> norm_num

/-- Two flips per step on a star with three leaves. -/
example (s : ℕ → LBState) (n : ℕ) : avoid (validStates 2 4)
    (pafsAnneal 2 mhTiny (· / 2) (fun x => maxcutObjective (starGraph 3) fun j => (x j : ℝ)) noPenalty (fun _ _ => 0)
      (fun _ => 1) s)
    (optima (validStates 2 4) fun x => maxcutObjective (starGraph 3) fun j => (x j : ℝ)) n 0 (fun _ => 0) = 1 :=
  pafs_star_misses (N := 3) (by decide) (by norm_num) (by decide) (by norm_num [mhTiny]) _ _ _ _ n

/-- GWG with two flips finds it: the probability to miss it is at most `(1 - δ^4)^(n/4)`. -/
example (s : ℕ → LBState) (n : ℕ) : avoid (validStates 2 4)
    (gwgAnneal 2 0 (· / 2) (fun x => maxcutObjective (starGraph 3) fun j => (x j : ℝ)) noPenalty (fun _ _ => 0)
      (fun _ => 1) s)
    {fun j => if j = 0 then 1 else 0} n 0 (fun _ => 0) ≤
      (1 - ((Real.exp (-(2 * 0 / 1)) / (4 : ℕ)) ^ 2 * Real.exp (-(3 / 1)) - 0) ^ 4) ^ (n / 4) := by
  have hb : ∀ x ∈ validStates 2 4, 0 ≤ maxcutObjective (starGraph 3) (fun j => (x j : ℝ)) ∧
      maxcutObjective (starGraph 3) (fun j => (x j : ℝ)) ≤ 3 := by
    intro x hx
    have hx' := mem_validStates_two.1 hx
    have h : ∀ i : Fin 3, 0 ≤ (1 - ((x 0 : ℝ) * 2 - 1) * ((x i.succ : ℝ) * 2 - 1)) / 2 ∧
        (1 - ((x 0 : ℝ) * 2 - 1) * ((x i.succ : ℝ) * 2 - 1)) / 2 ≤ 1 := by
      intro i
      rcases hx' 0 with a | a <;> rcases hx' i.succ with b | b <;> rw [a, b] <;> norm_num
    simp only [maxcutObjective, starGraph, mul_one]
    refine ⟨Finset.sum_nonneg fun i _ => (h i).1, (Finset.sum_le_sum fun i _ => (h i).2).trans (by simp)⟩
  exact gwg_visits (D := 4) (k := 2) (by norm_num) (by norm_num) (name := "SQRT") (fun v => by simp [applyWeightLog]) _ _
    (fun _ => 1) s le_rfl
    (fun x hx y hy => by simp only [noPenalty, sub_zero]; linarith [(hb x hx).2, (hb y hy).1]) (by simp) one_pos n
    (fun _ _ => le_rfl) (by positivity) (mem_validStates_two.2 fun _ => Or.inl rfl)
    (mem_validStates_two.2 fun j => by split_ifs <;> simp) (mem_singleton_self _)

end Discs
