import Verif.Lemmas.ReportHold
import Verif.Props.ReportEven

/-!
# Property C116: an odd number of flips and an even log interval

The path auxiliary sampler with an odd number of flips changes the parity of a sample in every step that is not rejected.
If only every second step is logged, all parities show up at logged steps exactly if some move can be rejected.
-/

namespace Discs

open Finset Spec Filter

variable {D B : ℕ}

/-- A move by `k` flips. -/
def kFlip (k : ℕ) (a b : Fin D → ℤ) : Prop := ∃ A : Finset (Fin D), A.card = k ∧ b = flipSet a A

theorem kFlip_back {k : ℕ} (hk : k ≤ D) {y : Fin D → ℤ} (hy : y ∈ validStates 2 D) :
    Walk (validStates 2 D) (kFlip k) 2 y y := by
  obtain ⟨A, -, hA⟩ := Finset.exists_subset_card_eq (s := (univ : Finset (Fin D))) (n := k) (by simpa using hk)
  refine (Walk.single hy ⟨A, hA, rfl⟩).snoc (flipSet_valid hy A) ⟨A, hA, funext fun j => ?_⟩
  unfold flipSet
  split_ifs <;> omega

/-- Flips of an odd number of sites change the sign. -/
theorem kFlip_sign {k : ℕ} (hodd : Odd k) {a b : Fin D → ℤ} (ha : a ∈ validStates 2 D) (h : kFlip k a b) :
    signProd b = -signProd a := by
  obtain ⟨A, hA, rfl⟩ := h
  rw [signProd_diff ha (flipSet_valid ha A)]
  have : (univ.filter fun j => flipSet a A j ≠ a j) = A := by
    ext j
    simp only [mem_filter, mem_univ, true_and]
    unfold flipSet
    have := mem_validStates_two.1 ha j
    split_ifs with hj
    · exact ⟨fun _ => hj, fun _ => by omega⟩
    · exact ⟨fun h => absurd rfl h, fun h => absurd h hj⟩
  rw [this, hA, hodd.neg_one_pow]
  ring

theorem kFlip_walk_sign {k n : ℕ} (hodd : Odd k) {x : Fin D → ℤ} :
    ∀ {y}, Walk (validStates 2 D) (kFlip k) n x y → signProd y = (-1) ^ n * signProd x := by
  induction n with
  | zero => rintro y rfl; simp
  | succ n ih =>
    rintro y ⟨z, hz, h1, h2⟩
    rw [kFlip_sign hodd hz h2, ih h1]
    ring

/-- The moves of an odd number of flips have at least this probability. -/
theorem pafsAnneal_flip_ge {k : ℕ} (hk0 : 0 < k) (hk : k ≤ D) {name : String} {h : ℝ → ℝ}
    (hh : ∀ v, applyWeightLog name v = .ok (h v)) {obj pen : (Fin D → ℤ) → ℝ} {g : (Fin D → ℤ) → Fin D → ℝ}
    {temp : ℕ → ℝ} (s : ℕ → LBState) {R G Tm tiny : ℝ} (ht : 0 ≤ tiny)
    (hR : ∀ x ∈ validStates 2 D, ∀ y ∈ validStates 2 D, (obj x - pen x) - (obj y - pen y) ≤ R)
    (hG : ∀ x ∈ validStates 2 D, ∀ j, |g x j| ≤ G) (hTm : 0 < Tm) {t : ℕ} (hlow : Tm ≤ temp (t + 1))
    {a b : Fin D → ℤ} (ha : a ∈ validStates 2 D) (hab : kFlip k a b) :
    (Real.exp (-(2 * (G / Tm))) / D) ^ k * Real.exp (-(R / Tm)) - tiny ≤ pafsAnneal k tiny h obj pen g temp s t a b := by
  obtain ⟨A, hA, rfl⟩ := hab
  exact pafs_flip_ge hk0 hk hh (s t) ht (annealScore_le hG hTm hlow) (annealEnergy_diff hR hTm hlow) ha hA

theorem pafsFloor_le_one {k : ℕ} (hD : 0 < D) {R G Tm tiny : ℝ} (ht : 0 ≤ tiny) (hG : 0 ≤ G) (hR : 0 ≤ R) (hTm : 0 < Tm) :
    (Real.exp (-(2 * (G / Tm))) / D) ^ k * Real.exp (-(R / Tm)) - tiny ≤ 1 := by
  have hD' : (1 : ℝ) ≤ D := by exact_mod_cast hD
  have hG0 : 0 ≤ G / Tm := div_nonneg hG hTm.le
  have hR0 : 0 ≤ R / Tm := div_nonneg hR hTm.le
  have hp1 : Real.exp (-(2 * (G / Tm))) / D ≤ 1 := by
    rw [div_le_one (by linarith)]
    exact (Real.exp_le_one_iff.2 (by linarith)).trans hD'
  have := mul_le_one₀ (pow_le_one₀ (n := k) (by positivity) hp1) (Real.exp_pos (-(R / Tm))).le
    (Real.exp_le_one_iff.2 (by linarith))
  linarith

/-- **C116 (path auxiliary, samples kept).** An odd number of flips and any log interval, if in every stretch of
`2 M₀ + 1 + e` steps some sample is kept with probability `ρ` or more. -/
theorem pafs_reports_holding {k : ℕ} (hodd : Odd k) (hk : k < D ∨ D = 1 ∧ k = 1) :
    ∃ M₀, ∀ {B : ℕ} [NeZero B] {name : String} {h : ℝ → ℝ}, (∀ v, applyWeightLog name v = .ok (h v)) →
      ∀ (obj pen : (Fin D → ℤ) → ℝ) (g : (Fin D → ℤ) → Fin D → ℝ) (temp : ℕ → ℝ) (s : ℕ → LBState) (L : ℕ)
      {R G Tm tiny ρ a : ℝ}, 0 ≤ tiny →
      (∀ x ∈ validStates 2 D, ∀ y ∈ validStates 2 D, (obj x - pen x) - (obj y - pen y) ≤ R) →
      (∀ x ∈ validStates 2 D, ∀ j, |g x j| ≤ G) → 0 < Tm → (∀ t < L, Tm ≤ temp (t + 1)) → 0 ≤ a →
      a ≤ (Real.exp (-(2 * (G / Tm))) / D) ^ k * Real.exp (-(R / Tm)) - tiny → a ≤ ρ → ∀ {ref : ℝ}, 0 < ref →
      ∀ {logEvery : ℕ}, 0 < logEvery →
      (∀ t, ∃ x ∈ validStates 2 D, ∀ i < 2 * M₀ + 1 + logEvery, t + i < L →
        ρ ≤ pafsAnneal k tiny h obj pen g temp s (t + i) x x) →
      ∀ {ratio : ℝ}, 0 ≤ ratio → ratio ≤ 1 → ∀ (zero : Fin D → ℤ), ∀ z ∈ validStates 2 D,
      ∀ x ∈ prodStates B (validStates 2 D),
        let M := 2 * M₀ + 1 + logEvery
        shortfall (validStates 2 D) (pafsAnnealBatch k tiny h obj pen g temp s) (fun x => obj x - pen x)
          (fun t => temp t.toNat) ref logEvery L ratio zero x z ≤ ((1 - a ^ M) ^ (L / M)) ^ B := by
  obtain ⟨M₀, -, hw⟩ := exists_walk_bound (flipSet_reach_all hodd hk)
  have hD : 0 < D := by omega
  have hkD : k ≤ D := by omega
  refine ⟨M₀, fun {B _ name h} hh obj pen g temp s L {R G Tm tiny ρ a} ht hR hG hTm hlow ha0 hδ hρ {ref} href {logEvery} he
    hkeep {ratio} h0 h1 zero z hz x hx => ?_⟩
  obtain ⟨y, hy, hopt⟩ := exists_optimum (E := fun x => obj x - pen x) hz
  have hG0 : 0 ≤ G := (abs_nonneg _).trans (hG z hz ⟨0, hD⟩)
  have hR0 : 0 ≤ R := by have := hR z hz z hz; linarith
  refine shortfall_le (K := pafsAnneal k tiny h obj pen g temp s) (fun t => pafs_stochastic hD hkD ht h _ _ none (s t))
    (fun t x y => pafsBinary_batch k tiny h _ _ none (s t) x y)
    (R := fun t a b => kFlip k a b ∨ a = b ∧ (t < L → ρ ≤ pafsAnneal k tiny h obj pen g temp s t a a)) ha0
    (hδ.trans (pafsFloor_le_one hD ht hG0 hR0 hTm)) ?_
    (fun t x hx => reaches_hold (m := M₀) (H := fun t a => t < L → ρ ≤ pafsAnneal k tiny h obj pen g temp s t a a)
      he hy hopt (kFlip_back hkD hy) hw hkeep t hx) href h0 h1 _ zero hz hx
  rintro t htL v hv b hb (hf | ⟨rfl, hk'⟩)
  · exact hδ.trans (pafsAnneal_flip_ge hodd.pos hkD hh s ht hR hG hTm (hlow t htL) hv hf)
  · exact hρ.trans (hk' htL)

/-- A sample is kept with at least the probability of drawing a path times that of rejecting it. -/
theorem pafs_hold {k : ℕ} (hD : 0 < D) (hk : k ≤ D) {tiny κ : ℝ} (ht : 0 ≤ tiny) (h : ℝ → ℝ)
    (f : (Fin D → ℤ) → ℝ) (lr : (Fin D → ℤ) → Fin D → ℝ) (mask : Option (Fin D → ℝ)) (s : LBState) {x : Fin D → ℤ}
    (hx : x ∈ validStates 2 D) (idx : Fin k → Fin D) (hκ : pafsLogAcc h f lr mask x idx ≤ -κ) :
    pafsIdxLaw (pafsLogProb h lr mask x) idx * (1 - Real.exp (-κ)) ≤ pafsBinaryKernel k tiny h f lr mask s x x := by
  have e := (pafs_isMH k tiny h f lr mask s).lawU_eq ht (fun x => pafsIdxLaw (pafsLogProb h lr mask x)) x hx x
  refine le_trans ?_ e.ge
  unfold mhKernel
  have hq := ((pafs_pathMH hD hk h f lr mask).prob x hx).1
  refine le_trans ?_ (Finset.single_le_sum (f := fun idx : Fin k → Fin D =>
    pafsIdxLaw (pafsLogProb h lr mask x) idx * ((if gwgPropose x idx = x then acceptProb tiny
      (pafsLogAcc h f lr mask x idx) else 0) +
      (if x = x then 1 - acceptProb tiny (pafsLogAcc h f lr mask x idx) else 0)))
    (fun idx _ => mul_nonneg (hq idx) (add_nonneg (by
      split_ifs
      · exact acceptProb_nonneg _ _
      · rfl) (by
      rw [if_pos rfl]
      linarith [acceptProb_le_one tiny (pafsLogAcc h f lr mask x idx)])))
    (mem_univ idx))
  refine mul_le_mul_of_nonneg_left ?_ (hq idx)
  have h2 : acceptProb tiny (pafsLogAcc h f lr mask x idx) ≤ Real.exp (-κ) := by
    unfold acceptProb
    refine max_le (Real.exp_pos _).le ((min_le_right _ _).trans ?_)
    have := Real.exp_le_exp.2 hκ
    linarith
  have h3 : 0 ≤ if gwgPropose x idx = x then acceptProb tiny (pafsLogAcc h f lr mask x idx) else 0 := by
    split_ifs
    · exact acceptProb_nonneg _ _
    · rfl
  rw [if_pos rfl]
  linarith

/-- If no path is ever rejected, every step with an odd number of flips changes the sign. -/
theorem pafs_balanced_step {k : ℕ} (hodd : Odd k) (h : ℝ → ℝ) (f : (Fin D → ℤ) → ℝ)
    (lr : (Fin D → ℤ) → Fin D → ℝ) (mask : Option (Fin D → ℝ)) (s : LBState) {x : Fin D → ℤ} (hx : x ∈ validStates 2 D)
    (hbal : ∀ idx : Fin k → Fin D, Function.Injective idx → pafsLogAcc h f lr mask x idx = 0) {w : Fin D → ℤ}
    (hw : signProd w ≠ -signProd x) : pafsBinaryKernel k 0 h f lr mask s x w = 0 := by
  have e := (pafs_isMH k 0 h f lr mask s).lawU_eq le_rfl (fun x => pafsIdxLaw (pafsLogProb h lr mask x)) x hx w
  refine e.trans (Finset.sum_eq_zero fun idx _ => ?_)
  beta_reduce
  by_cases hq : pafsIdxLaw (pafsLogProb h lr mask x) idx = 0
  · rw [hq, zero_mul]
  · have hp := signProd_diff hx (gwgPropose_valid hx idx)
    rw [pafs_flips hq x hx, hodd.neg_one_pow, neg_one_mul] at hp
    have h1 : gwgPropose x idx ≠ w := fun e => hw (e ▸ hp)
    rw [hbal idx (pafsIdxLaw_ne_zero hq), if_neg h1]
    have : acceptProb 0 0 = 1 := by unfold acceptProb; simp
    rw [this]
    simp

/-- A property that alternates along all possible steps and excludes `A` at the steps that are looked at. -/
theorem missAt_eq_one_of {X : Type*} [DecidableEq X] {S A : Finset X} {K : ℕ → X → X → ℝ} {look : ℕ → Prop}
    [DecidablePred look] (hK : ∀ t, Stochastic S (K t)) {T : ℕ → X → Prop}
    (hT : ∀ t, ∀ z ∈ S, T t z → ∀ w ∈ S, ¬ T (t + 1) w → K t z w = 0)
    (hA : ∀ t, look t → ∀ y ∈ A, ¬ T (t + 1) y) (n : ℕ) :
    ∀ t, ∀ x ∈ S, T t x → missAt S K look A n t x = 1 := by
  induction n with
  | zero => intro t x hx hTx; rfl
  | succ n ih =>
    intro t x hx hTx
    rw [missAt, ← (hK t).2.1 x hx]
    refine Finset.sum_congr rfl fun z hz => ?_
    by_cases hTz : T (t + 1) z
    · rw [if_neg fun h => hA t h.1 z h.2 hTz, ih _ z hz hTz, mul_one]
    · rw [hT t x hx hTx z hz hTz, zero_mul]

/-- **C116 is false of the code (path auxiliary, nothing rejected).** If all paths are balanced, an even log interval shows
only one parity: if every optimum is at an odd distance from the start of every chain, no run reports it. -/
theorem pafs_balanced_reports [NeZero B] {k : ℕ} (hD : 0 < D) (hk : k ≤ D) (hodd : Odd k)
    (h : ℝ → ℝ) (obj pen : (Fin D → ℤ) → ℝ) (g : (Fin D → ℤ) → Fin D → ℝ) (temp : ℕ → ℝ) (s : ℕ → LBState)
    (hbal : ∀ t, ∀ x ∈ validStates 2 D, ∀ idx : Fin k → Fin D, Function.Injective idx →
      pafsLogAcc h (annealEnergy obj pen temp t) (fun x j => (1 - 2 * (x j : ℝ)) * annealGrad g temp t x j) none x idx = 0)
    {ref : ℝ} (href : 0 < ref) {logEvery : ℕ} (hev : Even logEvery) (L : ℕ) {ratio : ℝ} (h0 : 0 ≤ ratio) (h1 : ratio ≤ 1)
    (zero : Fin D → ℤ) {x : Fin B → Fin D → ℤ} (hx : x ∈ prodStates B (validStates 2 D))
    (hopt : ∀ b, ∀ y ∈ optima (validStates 2 D) fun x => obj x - pen x, Odd (univ.filter fun j => y j ≠ x b j).card)
    {z : Fin D → ℤ} (hz : z ∈ optima (validStates 2 D) fun x => obj x - pen x)
    (hfl : -1000000000 < (obj z - pen z) / ref) :
    shortfall (validStates 2 D) (pafsAnnealBatch k 0 h obj pen g temp s) (fun x => obj x - pen x)
      (fun t => temp t.toNat) ref logEvery L ratio zero x z = 1 := by
  rw [shortfall_eq_miss (K := pafsAnneal k 0 h obj pen g temp s) (KB := pafsAnnealBatch k 0 h obj pen g temp s)
    (fun t x y => pafsBinary_batch k 0 h _ _ none (s t) x y) href logEvery L h0 h1 _ zero hz hfl]
  refine Finset.prod_eq_one fun b _ => ?_
  have hxb := mem_prodStates.1 hx b
  refine missAt_eq_one_of (fun t => pafs_stochastic hD hk le_rfl h _ _ none (s t))
    (T := fun t w => signProd w = (-1) ^ t * signProd (x b)) (fun t w hw hTw u _ hTu => ?_) (fun t hl y hy => ?_) L 0 _ hxb
    (by simp)
  · refine pafs_balanced_step hodd h _ _ none (s t) hw (hbal t w hw) fun e => hTu ?_
    rw [e, hTw]; ring
  · have hte : Even (t + 1) := hev.trans_dvd hl
    rw [hte.neg_one_pow, one_mul, signProd_diff hxb (mem_optima.1 hy).1, (hopt b y hy).neg_one_pow]
    intro e
    have h0 : signProd (x b) = 0 := by linarith
    have h1 := signProd_abs hxb
    rw [h0, abs_zero] at h1
    exact zero_ne_one h1

/-! ## The exact condition at a constant temperature -/

theorem exists_bounds (E : (Fin D → ℤ) → ℝ) (g : (Fin D → ℤ) → Fin D → ℝ) :
    ∃ R G : ℝ, 0 ≤ R ∧ 0 ≤ G ∧ (∀ x ∈ validStates 2 D, ∀ y ∈ validStates 2 D, E x - E y ≤ R) ∧
      ∀ x ∈ validStates 2 D, ∀ j, |g x j| ≤ G := by
  refine ⟨∑ x ∈ validStates 2 D, 2 * |E x|, ∑ x ∈ validStates 2 D, ∑ j, |g x j|,
    Finset.sum_nonneg fun _ _ => by positivity, Finset.sum_nonneg fun _ _ => Finset.sum_nonneg fun _ _ => abs_nonneg _,
    fun x hx y hy => ?_, fun x hx j => ?_⟩
  · have h1 := Finset.single_le_sum (f := fun x => 2 * |E x|) (fun _ _ => by positivity) hx
    have h2 := Finset.single_le_sum (f := fun x => 2 * |E x|) (fun _ _ => by positivity) hy
    have h3 := le_abs_self (E x)
    have h4 := neg_abs_le (E y)
    linarith
  · exact (Finset.single_le_sum (f := fun j => |g x j|) (fun _ _ => abs_nonneg _) (mem_univ j)).trans
      (Finset.single_le_sum (f := fun x => ∑ j, |g x j|) (fun _ _ => Finset.sum_nonneg fun _ _ => abs_nonneg _) hx)

/-- With optima of both parities, moves that change the parity show one of them at any logged step. -/
theorem reaches_parity {k : ℕ} (hodd : Odd k) (hkD : k ≤ D) {m e : ℕ} (he : 0 < e) {A : Finset (Fin D → ℤ)}
    (hw : ∀ x ∈ validStates 2 D, ∀ z ∈ validStates 2 D, ∃ n ≤ m, Walk (validStates 2 D) (kFlip k) n x z)
    {y₁ y₂ : Fin D → ℤ} (h₁ : y₁ ∈ validStates 2 D) (h₂ : y₂ ∈ validStates 2 D) (hA₁ : y₁ ∈ A) (hA₂ : y₂ ∈ A)
    (hd : Odd (univ.filter fun j => y₂ j ≠ y₁ j).card) (t : ℕ) {x : Fin D → ℤ} (hx : x ∈ validStates 2 D) :
    Reaches (validStates 2 D) (fun _ => kFlip k) (fun t => e ∣ t + 1) A (m + e) t x := by
  obtain ⟨n₁, hn₁, w₁⟩ := hw x hx y₁ h₁
  obtain ⟨n₂, hn₂, w₂⟩ := hw x hx y₂ h₂
  obtain ⟨i, hi1, hi2, hi3⟩ := exists_logged he t m
  have hs := signProd_diff h₁ h₂
  rw [hd.neg_one_pow, kFlip_walk_sign hodd w₁, kFlip_walk_sign hodd w₂] at hs
  have hx0 : signProd x ≠ 0 := fun h => by
    have := signProd_abs hx
    rw [h, abs_zero] at this
    exact zero_ne_one this
  have hpar : ((-1 : ℝ)) ^ n₂ = -(-1) ^ n₁ := mul_right_cancel₀ hx0 (by rw [hs]; ring)
  have key : ∀ {n y}, y ∈ validStates 2 D → y ∈ A → n ≤ m → Walk (validStates 2 D) (kFlip k) n x y → Even (i + 1 - n) →
      Reaches (validStates 2 D) (fun _ => kFlip k) (fun t => e ∣ t + 1) A (m + e) t x := by
    intro n y hy hA hn w hev
    have hpow : ∀ l, Walk (validStates 2 D) (kFlip k) (2 * l) y y := by
      intro l
      induction l with
      | zero => rfl
      | succ l ih => exact ih.trans (kFlip_back hkD hy)
    obtain ⟨l, hl⟩ := hev
    have hwalk : Walk (validStates 2 D) (kFlip k) (i + 1) x y := by
      have := w.trans (hpow l)
      rwa [show n + 2 * l = i + 1 by omega] at this
    exact Reaches.mono hi2 hx (reaches_of_walk hy hA i t x hx hwalk hi3)
  by_cases hev : Even (i + 1 - n₁)
  · exact key h₁ hA₁ hn₁ w₁ hev
  · refine key h₂ hA₂ hn₂ w₂ ?_
    rcases Nat.even_or_odd n₁ with p | p <;> rcases Nat.even_or_odd n₂ with q | q
    · rw [p.neg_one_pow, q.neg_one_pow] at hpar; norm_num at hpar
    · rw [Nat.not_even_iff_odd] at hev
      grind
    · rw [Nat.not_even_iff_odd] at hev
      grind
    · rw [p.neg_one_pow, q.neg_one_pow] at hpar; norm_num at hpar

/-- **C116 (path auxiliary, even log interval, both directions).** At a constant temperature, with an odd number of flips
below the number of sites, an ideal acceptance test and an even log interval, long runs report the optimum from every start
if and only if some path is not balanced (so that it or its reverse is sometimes rejected) or there are optima at an odd
distance from one another. -/
theorem pafs_reports_even_iff [NeZero B] {k : ℕ} (hodd : Odd k) (hk : k < D ∨ D = 1 ∧ k = 1) {name : String} {h : ℝ → ℝ}
    (hh : ∀ v, applyWeightLog name v = .ok (h v)) (obj pen : (Fin D → ℤ) → ℝ) (g : (Fin D → ℤ) → Fin D → ℝ) {τ : ℝ}
    (hτ : 0 < τ) (s : ℕ → LBState) {ref : ℝ} (href : 0 < ref) {logEvery : ℕ} (he : 0 < logEvery) (hev : Even logEvery)
    {ratio : ℝ} (h0 : 0 ≤ ratio) (h1 : ratio ≤ 1) (zero : Fin D → ℤ) {z : Fin D → ℤ}
    (hz : z ∈ optima (validStates 2 D) fun x => obj x - pen x) (hfl : -1000000000 < (obj z - pen z) / ref) :
    (∀ x ∈ prodStates B (validStates 2 D), Tendsto (fun L => shortfall (validStates 2 D)
        (pafsAnnealBatch k 0 h obj pen g (constSchedule τ) s) (fun x => obj x - pen x)
        (fun t => constSchedule τ t.toNat) ref logEvery L ratio zero x z) atTop (nhds 0)) ↔
      (∃ x ∈ validStates 2 D, ∃ idx : Fin k → Fin D, Function.Injective idx ∧
        let q := fun x => pafsIdxLaw (k := k) (pafsLogProb h (fun x j => (1 - 2 * (x j : ℝ)) * (g x j / τ)) none x)
        Real.exp ((obj x - pen x) / τ) * q x idx ≠
          Real.exp ((obj (gwgPropose x idx) - pen (gwgPropose x idx)) / τ) * q (gwgPropose x idx) fun i => idx i.rev) ∨
      ∃ y₁ ∈ optima (validStates 2 D) fun x => obj x - pen x, ∃ y₂ ∈ optima (validStates 2 D) fun x => obj x - pen x,
        Odd (univ.filter fun j => y₂ j ≠ y₁ j).card := by
  have hD : 0 < D := by omega
  have hkD : k ≤ D := by omega
  have hzv := (mem_optima.1 hz).1
  obtain ⟨R, G, hR0, hG0, hR, hG⟩ := exists_bounds (fun x => obj x - pen x) g
  let f : (Fin D → ℤ) → ℝ := fun x => (obj x - pen x) / τ
  let lr : (Fin D → ℤ) → Fin D → ℝ := fun x j => (1 - 2 * (x j : ℝ)) * (g x j / τ)
  have hf : ∀ t, annealEnergy obj pen (constSchedule τ) t = f := fun t => by
    funext x; simp [f, annealEnergy, combForward, constSchedule]
  have hlr : ∀ t, (fun (x : Fin D → ℤ) j => (1 - 2 * (x j : ℝ)) * annealGrad g (constSchedule τ) t x j) = lr := fun t => by
    funext x j; simp [lr, annealGrad, constSchedule]
  have hconst : ∀ t, τ ≤ constSchedule τ t := fun t => (const_schedule τ τ le_rfl hτ t 0).2.2.2.ge
  have H := pafs_pathMH hD hkD h f lr none
  have hpos : ∀ (lp : Fin D → ℝ) (idx : Fin k → Fin D), Function.Injective idx → 0 < pafsIdxLaw lp idx := by
    intro lp idx hi
    refine lt_of_le_of_ne (seqDraw_nonneg (fun _ => (Real.exp_pos _).le) _ _) (Ne.symm ?_)
    exact (seqDraw_ne_zero_iff (fun i => Real.exp_pos _) _ _).2
      ⟨List.nodup_ofFn.2 hi, fun _ _ => Finset.notMem_empty _⟩
  have hmoves : ∀ x ∈ validStates 2 D, ∀ idx : Fin k → Fin D, Function.Injective idx → gwgPropose x idx ≠ x := by
    intro x hx idx hi e
    have hp := signProd_diff hx (gwgPropose_valid hx idx)
    rw [pafs_flips (hpos (pafsLogProb h lr none x) idx hi).ne' x hx, hodd.neg_one_pow, e] at hp
    have h0 : signProd x = 0 := by linarith
    have h1 := signProd_abs hx
    rw [h0, abs_zero] at h1
    exact zero_ne_one h1
  have hδ0 : 0 < (Real.exp (-(2 * (G / τ))) / D) ^ k * Real.exp (-(R / τ)) - 0 := by
    have : (0 : ℝ) < D := by exact_mod_cast hD
    rw [sub_zero]; positivity
  have hst : ∀ t, Stochastic (validStates 2 D) (pafsAnneal k 0 h obj pen g (constSchedule τ) s t) :=
    fun t => pafs_stochastic hD hkD le_rfl h _ _ none (s t)
  have hstB : ∀ t, Stochastic (prodStates B (validStates 2 D)) (pafsAnnealBatch k 0 h obj pen g (constSchedule τ) s t) :=
    fun t => by
    have e : pafsAnnealBatch (B := B) k 0 h obj pen g (constSchedule τ) s t =
        prodKernel (pafsAnneal k 0 h obj pen g (constSchedule τ) s t) := by
      funext x y; exact pafsBinary_batch k 0 h _ _ none (s t) x y
    rw [e]; exact prodKernel_stochastic (hst t)
  have hlim : ∀ {a : ℝ} {M : ℕ}, 0 < a → a ≤ 1 → 0 < M → ∀ x ∈ prodStates B (validStates 2 D),
      (∀ L, shortfall (validStates 2 D) (pafsAnnealBatch k 0 h obj pen g (constSchedule τ) s) (fun x => obj x - pen x)
        (fun t => constSchedule τ t.toNat) ref logEvery L ratio zero x z ≤ ((1 - a ^ M) ^ (L / M)) ^ B) →
      Tendsto (fun L => shortfall (validStates 2 D) (pafsAnnealBatch k 0 h obj pen g (constSchedule τ) s)
        (fun x => obj x - pen x) (fun t => constSchedule τ t.toNat) ref logEvery L ratio zero x z) atTop (nhds 0) :=
    fun ha ha1 hM x hx hle => tendsto_of_tendsto_of_tendsto_of_le_of_le tendsto_const_nhds (geom_tendsto ha ha1 hM)
      (fun L => shortfall_nonneg hstB _ ref logEvery L ratio zero z hx) hle
  constructor
  · intro hT
    by_contra hcon
    push Not at hcon
    obtain ⟨hbal, hpar⟩ := hcon
    have hl : ∀ x ∈ validStates 2 D, ∀ idx : Fin k → Fin D, Function.Injective idx → pafsLogAcc h f lr none x idx = 0 := by
      intro x hx idx hi
      have hp := hpos (pafsLogProb h lr none x) idx hi
      have h1 := H.ratio x hx idx hp.ne' (hmoves x hx idx hi)
      have h2 := hbal x hx idx hi
      dsimp only at h2
      rw [← not_not.1 h2] at h1
      have h3 : Real.exp (pafsLogAcc h f lr none x idx) = 1 :=
        mul_right_cancel₀ (mul_pos (Real.exp_pos (f x)) hp).ne' (by rw [one_mul]; exact h1.symm)
      rwa [Real.exp_eq_one_iff] at h3
    let x₀ : Fin D → ℤ := oneFlip z ⟨0, hD⟩
    have hx₀ : x₀ ∈ validStates 2 D := oneFlip_valid hzv _
    have hzx : signProd x₀ = -signProd z := by
      have := kFlip_sign (k := 1) odd_one hzv (b := x₀) ⟨{⟨0, hD⟩}, by simp, funext fun j => by
        dsimp only [x₀]
        unfold oneFlip flipSet
        by_cases hj : j = ⟨0, hD⟩
        · subst hj; simp
        · simp [hj]⟩
      exact this
    have hB := hT (fun _ => x₀) (mem_prodStates.2 fun _ => hx₀)
    have hone : ∀ L, shortfall (B := B) (validStates 2 D) (pafsAnnealBatch k 0 h obj pen g (constSchedule τ) s)
        (fun x => obj x - pen x) (fun t => constSchedule τ t.toNat) ref logEvery L ratio zero (fun _ => x₀) z = 1 := fun L =>
      pafs_balanced_reports hD hkD hodd h obj pen g (constSchedule τ) s
        (fun t x hx idx hi => by rw [hf, hlr]; exact hl x hx idx hi) href hev L h0 h1 zero
        (mem_prodStates.2 fun _ => hx₀) (fun b y hy => ?_) hz hfl
    · simp only [hone] at hB
      exact one_ne_zero (tendsto_nhds_unique tendsto_const_nhds hB)
    · have hyv := (mem_optima.1 hy).1
      have h2 := hpar z hz y hy
      rw [Nat.not_odd_iff_even] at h2
      have e1 := signProd_diff hzv hyv
      rw [h2.neg_one_pow, one_mul] at e1
      have e2 := signProd_diff hx₀ hyv
      rw [e1, hzx] at e2
      rcases Nat.even_or_odd (univ.filter fun j => y j ≠ x₀ j).card with p | p
      · rw [p.neg_one_pow] at e2
        have h0 : signProd z = 0 := by linarith
        have h1 := signProd_abs hzv
        rw [h0, abs_zero] at h1
        exact absurd h1 zero_ne_one
      · exact p
  · rintro (⟨x₀, hx₀, idx₀, hi₀, hne⟩ | ⟨y₁, hy₁, y₂, hy₂, hd⟩) x hx
    · -- a path that is sometimes rejected
      obtain ⟨x₁, hx₁, idx, hi, hneg⟩ : ∃ x ∈ validStates 2 D, ∃ idx : Fin k → Fin D, Function.Injective idx ∧
          pafsLogAcc h f lr none x idx < 0 := by
        have hp := hpos (pafsLogProb h lr none x₀) idx₀ hi₀
        have h1 := H.ratio x₀ hx₀ idx₀ hp.ne' (hmoves x₀ hx₀ idx₀ hi₀)
        rcases lt_trichotomy (pafsLogAcc h f lr none x₀ idx₀) 0 with hlt | heq | hgt
        · exact ⟨x₀, hx₀, idx₀, hi₀, hlt⟩
        · rw [heq, Real.exp_zero, one_mul] at h1
          exact absurd h1.symm hne
        · refine ⟨_, gwgPropose_valid hx₀ idx₀, fun i => idx₀ i.rev, fun _ _ h => Fin.rev_injective (hi₀ h), ?_⟩
          have := H.antisymm x₀ hx₀ idx₀ hp.ne' (hmoves x₀ hx₀ idx₀ hi₀)
          rw [this]; linarith
      obtain ⟨M₀, hall⟩ := pafs_reports_holding (D := D) hodd hk
      have hp := hpos (pafsLogProb h lr none x₁) idx hi
      have hρ0 : 0 < pafsIdxLaw (pafsLogProb h lr none x₁) idx * (1 - Real.exp (pafsLogAcc h f lr none x₁ idx)) :=
        mul_pos hp (sub_pos.2 (Real.exp_lt_one_iff.2 hneg))
      have ha := lt_min hδ0 hρ0
      refine hlim ha ((min_le_left _ _).trans (pafsFloor_le_one hD le_rfl hG0 hR0 hτ))
        (by omega : 0 < 2 * M₀ + 1 + logEvery) x hx fun L => ?_
      refine hall hh obj pen g (constSchedule τ) s L le_rfl hR hG hτ (fun t _ => hconst (t + 1)) ha.le (min_le_left _ _)
        (min_le_right _ _) href he (fun t => ⟨x₁, hx₁, fun i _ _ => ?_⟩) h0 h1 zero z hzv x hx
      have := pafs_hold hD hkD le_rfl h f lr none (s (t + i)) hx₁ idx (κ := -pafsLogAcc h f lr none x₁ idx) (by simp)
      rw [neg_neg] at this
      unfold pafsAnneal
      rw [hf, hlr]
      exact this
    · -- optima of both parities
      obtain ⟨M₀, -, hw⟩ := exists_walk_bound (flipSet_reach_all (D := D) hodd hk)
      refine hlim hδ0 (pafsFloor_le_one hD le_rfl hG0 hR0 hτ) (by omega : 0 < M₀ + logEvery) x hx fun L => ?_
      refine shortfall_le (K := pafsAnneal k 0 h obj pen g (constSchedule τ) s) hst
        (fun t x y => pafsBinary_batch k 0 h _ _ none (s t) x y) (R := fun _ => kFlip k) hδ0.le
        (pafsFloor_le_one hD le_rfl hG0 hR0 hτ) (fun t _ a ha b _ hab => ?_)
        (fun t x hx => reaches_parity hodd hkD he hw (mem_optima.1 hy₁).1 (mem_optima.1 hy₂).1 hy₁ hy₂ hd t hx)
        href h0 h1 _ zero hzv hx
      exact pafsAnneal_flip_ge hodd.pos hkD hh s le_rfl hR hG hτ (hconst _) ha hab

/-! ## Examples -/

/-- Scores that do not depend on the sample say nothing about the model: unless it is flat, some path is rejected. -/
example [NeZero B] (s : ℕ → LBState) (x : Fin B → Fin 4 → ℤ) (hx : x ∈ prodStates B (validStates 2 4)) :
    Tendsto (fun L => shortfall (validStates 2 4) (pafsAnnealBatch 3 0 (· / 2) (fun x => (x 0 : ℝ)) (fun _ => 0)
      (fun _ _ => 0) (constSchedule 1) s) (fun x => (x 0 : ℝ) - 0) (fun t => constSchedule 1 t.toNat) 1 2 L 0
      (fun _ => 0) x fun _ => 1) atTop (nhds 0) := by
  refine (pafs_reports_even_iff (k := 3) (D := 4) (by decide) (Or.inl (by norm_num)) (name := "SQRT") (fun _ => rfl)
    (fun x => (x 0 : ℝ)) (fun _ => 0) (fun _ _ => 0) one_pos s one_pos (logEvery := 2) (by norm_num) (by decide) le_rfl
    zero_le_one (fun _ => 0) (z := fun _ => 1) ?_ (by norm_num)).2 (Or.inr ?_) x hx
  · refine mem_optima.2 ⟨mem_validStates_two.2 fun _ => Or.inr rfl, fun y hy => ?_⟩
    rcases mem_validStates_two.1 hy 0 with e | e <;> simp [e]
  · have hopt : ∀ y ∈ validStates 2 4, y 0 = 1 → y ∈ optima (validStates 2 4) fun x => (x 0 : ℝ) - 0 := by
      intro y hy h1
      refine mem_optima.2 ⟨hy, fun w hw => ?_⟩
      rcases mem_validStates_two.1 hw 0 with e | e <;> simp [e, h1]
    exact ⟨![1, 0, 0, 0], hopt _ (by decide) rfl, ![1, 1, 0, 0], hopt _ (by decide) rfl, by decide⟩

/-- The weights of the flips of the next theorem. -/
def squareFlow (x : Fin 2 → ℤ) (i : Fin 2) : ℝ := 2 - (x (1 - i) : ℝ)

/-- **C116 is false of the code (a model on which nothing is rejected).** Two sites, energy `log (4 - x₀ - x₁)`, one flip per
step, gradients that make every path balanced, logged every second step: the run from `(1, 0)` never reports the optimum
`(0, 0)`. -/
theorem pafs_square_misses [NeZero B] (s : ℕ → LBState) (L : ℕ) :
    shortfall (B := B) (validStates 2 2) (pafsAnnealBatch 1 0 (· / 2) (fun x => Real.log (4 - x 0 - x 1)) (fun _ => 0)
      (fun x j => (1 - 2 * (x j : ℝ)) * (2 * Real.log (squareFlow x j))) (constSchedule 1) s)
      (fun x => Real.log (4 - x 0 - x 1) - 0) (fun t => constSchedule 1 t.toNat) 1 2 L 0 (fun _ => 0)
      (fun _ => ![1, 0]) (fun _ => 0) = 1 := by
  have hb : ∀ {x : Fin 2 → ℤ}, x ∈ validStates 2 2 → ∀ i, (0 : ℝ) ≤ x i ∧ (x i : ℝ) ≤ 1 := fun hx i => by
    rcases mem_validStates_two.1 hx i with e | e <;> simp [e]
  have hW : ∀ {x : Fin 2 → ℤ}, x ∈ validStates 2 2 → ∀ i, 0 < squareFlow x i := fun hx i => by
    unfold squareFlow; linarith [(hb hx (1 - i)).2]
  have hsum : ∀ x : Fin 2 → ℤ, squareFlow x 0 + squareFlow x 1 = 4 - x 0 - x 1 := fun x => by
    unfold squareFlow
    simp
    ring
  have hE : ∀ {x : Fin 2 → ℤ}, x ∈ validStates 2 2 → (0 : ℝ) < 4 - x 0 - x 1 := fun hx => by
    linarith [(hb hx 0).2, (hb hx 1).2]
  have hle : ∀ y ∈ validStates 2 2, (0 : ℝ) ≤ y 0 + y 1 := fun y hy => by linarith [(hb hy 0).1, (hb hy 1).1]
  refine pafs_balanced_reports (k := 1) (by norm_num) (by norm_num) odd_one (· / 2) _ _ _ _ s ?_ one_pos (by decide) L le_rfl
    zero_le_one _ (mem_prodStates.2 fun _ => by decide) ?_ ?_ ?_
  · intro t x hx idx hi
    have hflip := gwgPropose_one x (idx 0)
    have eidx : (fun _ => idx 0) = idx := funext fun i => by rw [Subsingleton.elim i 0]
    rw [eidx] at hflip
    let lr : (Fin 2 → ℤ) → Fin 2 → ℝ := fun x j =>
      (1 - 2 * (x j : ℝ)) * annealGrad (fun x j => (1 - 2 * (x j : ℝ)) * (2 * Real.log (squareFlow x j))) (constSchedule 1) t x j
    let f : (Fin 2 → ℤ) → ℝ := annealEnergy (fun x => Real.log (4 - x 0 - x 1)) (fun _ => 0) (constSchedule 1) t
    have hlr : ∀ {x : Fin 2 → ℤ}, x ∈ validStates 2 2 → ∀ j, lr x j / 2 = Real.log (squareFlow x j) := fun {x} hx j => by
      have : (1 - 2 * (x j : ℝ)) * (1 - 2 * (x j : ℝ)) = 1 := by
        rcases mem_validStates_two.1 hx j with e | e <;> rw [e] <;> norm_num
      simp only [lr, annealGrad, constSchedule]
      linear_combination Real.log (squareFlow x j) * this
    have hflow : ∀ {x : Fin 2 → ℤ}, x ∈ validStates 2 2 → ∀ idx : Fin 1 → Fin 2,
        Real.exp (f x) * pafsIdxLaw (pafsLogProb (· / 2) lr none x) idx = squareFlow x (idx 0) := by
      intro x hx idx
      have hs := sum_exp_pafsLogProb (D := 2) (by norm_num) (· / 2) lr none x
      have hinj : Function.Injective idx := fun a b _ => Subsingleton.elim a b
      have hf : Real.exp (f x) = 4 - x 0 - x 1 := by
        simp only [f, annealEnergy, combForward, constSchedule, sub_zero, one_mul, mul_zero, zero_add, div_one]
        exact Real.exp_log (hE hx)
      rw [pafsIdxLaw_prod hs hinj, hf]
      simp only [Fin.prod_univ_one]
      have hp : Real.exp (pafsLogProb (· / 2) lr none x (idx 0)) = squareFlow x (idx 0) / (4 - x 0 - x 1) := by
        unfold pafsLogProb
        rw [exp_logSoftmax]
        unfold softmax
        simp only [applyMask, hlr hx, Fin.sum_univ_two, Real.exp_log (hW hx _), hsum]
      rw [hp]
      have := hE hx
      simp
      field_simp
    have H := pafs_pathMH (k := 1) (D := 2) (by norm_num) (by norm_num) (· / 2) f lr none
    have hv := gwgPropose_valid hx idx
    have hne : gwgPropose x idx ≠ x := by
      rw [hflip]
      intro e
      have := congrFun e (idx 0)
      rw [Function.update_self] at this
      omega
    have h1 := hflow hx idx
    have h2 := hflow hv fun i => idx i.rev
    have hq : pafsIdxLaw (pafsLogProb (· / 2) lr none x) idx ≠ 0 := fun h => by
      rw [h, mul_zero] at h1
      exact (hW hx _).ne h1
    have h3 := H.ratio x hx idx hq hne
    rw [h1, h2] at h3
    have h4 : squareFlow (gwgPropose x idx) (idx (Fin.rev 0)) = squareFlow x (idx 0) := by
      unfold squareFlow
      rw [show (Fin.rev 0 : Fin 1) = 0 from rfl, hflip, Function.update_of_ne]
      generalize idx 0 = i
      fin_cases i <;> decide
    rw [h4] at h3
    have h5 : Real.exp (pafsLogAcc (· / 2) f lr none x idx) = 1 :=
      mul_right_cancel₀ (hW hx (idx 0)).ne' (by rw [one_mul]; exact h3.symm)
    rwa [Real.exp_eq_one_iff] at h5
  · intro b y hy
    obtain ⟨hyv, hmax⟩ := mem_optima.1 hy
    have h0 := hmax (fun _ => 0) (mem_validStates_two.2 fun _ => Or.inl rfl)
    simp only [sub_zero, Int.cast_zero] at h0
    have h1 := (Real.log_le_log_iff (by norm_num) (hE hyv)).1 h0
    have hy0 : y = fun _ => 0 := by
      have a := hb hyv 0
      have c := hb hyv 1
      funext i
      have e0 : (y 0 : ℝ) = 0 := by linarith
      have e1 : (y 1 : ℝ) = 0 := by linarith
      fin_cases i
      · exact_mod_cast e0
      · exact_mod_cast e1
    subst hy0
    decide
  · refine mem_optima.2 ⟨mem_validStates_two.2 fun _ => Or.inl rfl, fun y hy => ?_⟩
    simp only [sub_zero, Int.cast_zero]
    exact Real.log_le_log (hE hy) (by linarith [hle y hy])
  · have : 0 ≤ Real.log 4 := Real.log_nonneg (by norm_num)
    simp
    linarith

end Discs
