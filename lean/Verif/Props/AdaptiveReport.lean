import Verif.Lemmas.BatchRun
import Verif.Lemmas.ReportExact
import Verif.Props.AdaptiveVisits

/-!
# Property C116, adaptive GWG: what a long run of a batch with a shared radius reports
-/

namespace Discs

open Finset Spec Filter

variable {D B : ℕ}

/-- Probability that a run of `L` steps of `B` chains whose sampler has the state `s` at the start reports a best ratio
below that of the sample `z`; `v` is the list of the `L` batches of the run. -/
noncomputable def adaptiveShortfall {St : Type*} {Ω : St → Type*} [∀ s, Fintype (Ω s)] [NeZero B]
    (p : ℕ → ∀ s, (Fin D → ℤ) → Ω s → ℝ)
    (step : ℕ → ∀ s, (Fin B → Fin D → ℤ) → (Fin B → Ω s) → (Fin B → ℝ) → (Fin B → Fin D → ℤ) × St)
    (E : (Fin D → ℤ) → ℝ) (temp : ℤ → ℝ) (ref : ℝ) (logEvery L : ℕ) (ratio : ℝ) (zero : Fin D → ℤ) (s : St)
    (x : Fin B → Fin D → ℤ) (z : Fin D → ℤ) : ℝ :=
  batchExpect p step (fun v => open Classical in
    if (coChain (replay v.get E temp ref) logEvery v.length ratio zero () x 0).best 0 < E z / ref then 1 else 0) L 0 s [] x

/-- One step of adaptive GWG on a batch: next samples and next state (`gwg.py:80-122`). -/
noncomputable def gwgBatchMove (hD : 0 < D) (target tiny : ℝ) (h : ℝ → ℝ) (f : (Fin D → ℤ) → ℝ)
    (g : (Fin D → ℤ) → Fin D → ℝ) (s : LBState) (x : Fin B → Fin D → ℤ)
    (idx : Fin B → Fin (numFlips D s.radius) → Fin D) (u : Fin B → ℝ) : (Fin B → Fin D → ℤ) × LBState :=
  let r := gwgAdaptiveStep hD target tiny h f g none x s idx u
  (r.1, r.2.1)

/-- The chains accept or reject their own proposals. -/
theorem gwgBatch_accRej (hD : 0 < D) (target : ℝ) {tiny : ℝ} (h : ℝ → ℝ) (f : ℕ → (Fin D → ℤ) → ℝ)
    (g : ℕ → (Fin D → ℤ) → Fin D → ℝ) :
    BatchAccRej (B := B) (Ω := fun s : LBState => Fin (numFlips D s.radius) → Fin D) (validStates 2 D) tiny
      (fun k => gwgLaws h (g k)) (fun k => gwgBatchMove hD target tiny h (f k) (g k))
      (fun _ _ x idx => gwgPropose x idx) (fun k _ x idx => gwgLogAcc h (f k) (g k) none x idx)
      (fun k s x idx => (gwgBatchMove hD target tiny h (f k) (g k) s x idx fun _ => 0).2) where
  prob k _ x hx := (gwg_pathMH hD _ h (f k) (g k) none).prob x hx
  closed _ _ _ hx idx := gwgPropose_valid hx idx
  state _ _ _ _ _ _ := rfl
  rows k s x _ idx u := by
    classical
    funext b
    simp only [gwgBatchMove, gwgAdaptiveStep, lbSelectBinary, gwgProposeAdaptive_eq, gwgLlAdaptive_eq, mhStep, sel,
      decide_eq_true_eq]
    rfl

/-- The radius after a step. -/
theorem gwgBatch_radius (hD : 0 < D) (target tiny : ℝ) (h : ℝ → ℝ) (f : (Fin D → ℤ) → ℝ) (g : (Fin D → ℤ) → Fin D → ℝ)
    (s : LBState) (x : Fin B → Fin D → ℤ) (idx : Fin B → Fin (numFlips D s.radius) → Fin D) (u : Fin B → ℝ) :
    (gwgBatchMove hD target tiny h f g s x idx u).2.radius =
      clip (s.radius + (∑ b, Real.exp (min (gwgLogAcc h f g none (x b) (idx b)) 0)) / B - target) 1 D := by
  simp only [gwgBatchMove, gwgAdaptiveStep, adaptRadius, meanB, clipMax, gwgProposeAdaptive_eq, gwgLlAdaptive_eq]
  rfl

section Floor

variable {name : String} {h : ℝ → ℝ} {obj pen : (Fin D → ℤ) → ℝ} {g : (Fin D → ℤ) → Fin D → ℝ} {temp : ℕ → ℝ}
  {R G Tm tiny : ℝ}

/-- At least one site is flipped by a proposal. -/
theorem gwgPropose_ne {k : ℕ} (hk : 0 < k) {a : Fin D → ℤ} (ha : a ∈ validStates 2 D) (idx : Fin k → Fin D) :
    gwgPropose a idx ≠ a := by
  intro e
  have := congrFun e (idx ⟨0, hk⟩)
  unfold gwgPropose at this
  rw [if_pos ⟨_, rfl⟩] at this
  have := mem_validStates_two.1 ha (idx ⟨0, hk⟩)
  omega

/-- Probability of any draws, and to draw them and accept. -/
theorem gwgAdaptive_draw_ge (hD : 0 < D) (hh : ∀ v, applyWeightLog name v = .ok (h v)) (ht : 0 ≤ tiny)
    (hR : ∀ x ∈ validStates 2 D, ∀ y ∈ validStates 2 D, (obj x - pen x) - (obj y - pen y) ≤ R)
    (hG : ∀ x ∈ validStates 2 D, ∀ j, |g x j| ≤ G) (hTm : 0 < Tm) {t : ℕ} (hlow : Tm ≤ temp (t + 1)) (r : ℝ)
    {a : Fin D → ℤ} (ha : a ∈ validStates 2 D) (idx : Fin (numFlips D r) → Fin D) :
    (Real.exp (-(2 * G / Tm)) / D) ^ D ≤ gwgDrawLaw h (annealGrad g temp t) none a idx ∧
    (Real.exp (-(2 * G / Tm)) / D) ^ D * Real.exp (-(R / Tm)) - tiny ≤
      gwgDrawLaw h (annealGrad g temp t) none a idx *
        acceptProb tiny (gwgLogAcc h (annealEnergy obj pen temp t) (annealGrad g temp t) none a idx) := by
  have hp1 : Real.exp (-(2 * G / Tm)) / D ≤ 1 := gwgFloor_le_one hD (gwgGrad_nonneg hD hG) hTm
  have hR0 : 0 ≤ R := by have := hR a ha a ha; linarith
  have hr1 : Real.exp (-(R / Tm)) ≤ 1 := Real.exp_le_one_iff.2 (by have := div_nonneg hR0 hTm.le; linarith)
  have hD' : (0 : ℝ) < D := by exact_mod_cast hD
  have ha0 : 0 ≤ Real.exp (-(2 * G / Tm)) / D := by positivity
  have hb : gwgPropose a idx ∈ validStates 2 D := gwgPropose_valid ha idx
  have hne := gwgPropose_ne (numFlips_pos hD r) ha idx
  have hpos : ∀ z ∈ validStates 2 D, (Real.exp (-(2 * G / Tm)) / D) ^ D ≤
      gwgDrawLaw h (annealGrad g temp t) none z idx := by
    intro z hz
    unfold gwgDrawLaw
    calc (Real.exp (-(2 * G / Tm)) / D) ^ D ≤ (Real.exp (-(2 * G / Tm)) / D) ^ numFlips D r :=
          pow_le_pow_of_le_one ha0 hp1 (numFlips_le _)
      _ = ∏ _i : Fin (numFlips D r), Real.exp (-(2 * G / Tm)) / D := by
        rw [Finset.prod_const, Finset.card_univ, Fintype.card_fin]
      _ ≤ _ := Finset.prod_le_prod (fun _ _ => ha0) fun i _ => gwg_index_ge hh hG hTm hlow hz (idx i)
  refine ⟨hpos a ha, ?_⟩
  have M := gwg_pathMH hD (numFlips D r) h (annealEnergy obj pen temp t) (annealGrad g temp t) none
  have hq0 : gwgDrawLaw h (annealGrad g temp t) none a idx ≠ 0 := by
    have := hpos a ha
    have h0 : 0 < (Real.exp (-(2 * G / Tm)) / D) ^ D := by positivity
    linarith
  have hq1 : gwgDrawLaw h (annealGrad g temp t) none a idx ≤ 1 := by
    have hp := M.prob a ha
    rw [← hp.2]; exact Finset.single_le_sum (fun e _ => hp.1 e) (mem_univ idx)
  have hratio := M.ratio a ha idx hq0 hne
  set b := gwgPropose a idx with he
  set q := gwgDrawLaw h (annealGrad g temp t) none a idx with hq
  set l := gwgLogAcc h (annealEnergy obj pen temp t) (annealGrad g temp t) none a idx with hl
  have hclose := (abs_le.1 (acceptProb_close ht l)).1
  rw [acceptProb_zero] at hclose
  have hfloor : (Real.exp (-(2 * G / Tm)) / D) ^ D * Real.exp (-(R / Tm)) ≤ q * min 1 (Real.exp l) := by
    rcases le_total 1 (Real.exp l) with e | e
    · rw [min_eq_left e, mul_one]
      exact (mul_le_of_le_one_right (by positivity) hr1).trans (hpos a ha)
    · rw [min_eq_right e]
      have hd := annealEnergy_diff hR hTm hlow a ha b hb
      have h2 : q * Real.exp l = Real.exp (annealEnergy obj pen temp t b - annealEnergy obj pen temp t a) *
          gwgDrawLaw h (annealGrad g temp t) none b idx := by
        rw [Real.exp_sub, div_mul_eq_mul_div, hratio]
        field_simp
      rw [h2, mul_comm]
      exact mul_le_mul (Real.exp_le_exp.2 (by linarith)) (hpos b hb) (by positivity) (Real.exp_pos _).le
  have hq0' : 0 ≤ q := (by positivity : (0:ℝ) ≤ (Real.exp (-(2 * G / Tm)) / D) ^ D).trans (hpos a ha)
  nlinarith

end Floor

/-- A run that shows an optimum at a logged step reports at least the optimum. -/
theorem shown_reports [NeZero B] {S : Finset (Fin D → ℤ)} {E : (Fin D → ℤ) → ℝ} (temp : ℤ → ℝ) {ref : ℝ}
    (href : 0 < ref) {logEvery : ℕ} {ratio : ℝ} (h0 : 0 ≤ ratio) (h1 : ratio ≤ 1) (zero : Fin D → ℤ)
    (x : Fin B → Fin D → ℤ) {z : Fin D → ℤ} (hz : z ∈ S) (v : List (Fin B → Fin D → ℤ))
    (hv : ShownAt (fun t => logEvery ∣ t + 1) (optima S E) v) :
    ¬ (coChain (replay v.get E temp ref) logEvery v.length ratio zero () x 0).best 0 < E z / ref := by
  obtain ⟨i, y, hi, hl, b, hb⟩ := hv
  obtain ⟨hlt, rfl⟩ := List.getElem?_eq_some_iff.1 hi
  intro hbest
  exact replay_best v.get temp href h0 h1 zero x hz hbest ⟨i, hlt⟩ hl b hb

/-- **C116 (adaptive GWG, odd log interval).** The chains of a batch share the radius, which depends on all of them.
Still the probability that the run reports less than the optimum shrinks geometrically in its length and in the number of
chains. -/
theorem gwgAdaptive_reports_odd [NeZero B] (hD : 0 < D) {name : String} {h : ℝ → ℝ}
    (hh : ∀ v, applyWeightLog name v = .ok (h v)) (obj pen : (Fin D → ℤ) → ℝ) {g : (Fin D → ℤ) → Fin D → ℝ}
    (temp : ℕ → ℝ) (target : ℝ) (s : LBState) {R G Tm tiny : ℝ} (ht : 0 ≤ tiny)
    (hR : ∀ x ∈ validStates 2 D, ∀ y ∈ validStates 2 D, (obj x - pen x) - (obj y - pen y) ≤ R)
    (hG : ∀ x ∈ validStates 2 D, ∀ j, |g x j| ≤ G) (hTm : 0 < Tm) (L : ℕ) (hlow : ∀ t < L, Tm ≤ temp (t + 1))
    (hδ : tiny ≤ (Real.exp (-(2 * G / Tm)) / D) ^ D * Real.exp (-(R / Tm))) {ref : ℝ} (href : 0 < ref) {logEvery : ℕ}
    (he : Odd logEvery) {ratio : ℝ} (h0 : 0 ≤ ratio) (h1 : ratio ≤ 1) (zero : Fin D → ℤ) {z : Fin D → ℤ}
    (hz : z ∈ validStates 2 D) {x : Fin B → Fin D → ℤ} (hx : x ∈ prodStates B (validStates 2 D)) :
    let δ := (Real.exp (-(2 * G / Tm)) / D) ^ D * Real.exp (-(R / Tm)) - tiny
    let M := D + 2 * logEvery
    adaptiveShortfall (fun t => gwgLaws h (annealGrad g temp t))
        (fun t => gwgBatchMove hD target tiny h (annealEnergy obj pen temp t) (annealGrad g temp t))
        (fun x => obj x - pen x) (fun t => temp t.toNat) ref logEvery L ratio zero s x z ≤
      ((1 - δ ^ M) ^ (L / M)) ^ B := by
  intro δ M
  have hx' := mem_prodStates.1 hx
  have hp1 : Real.exp (-(2 * G / Tm)) / D ≤ 1 := gwgFloor_le_one hD (gwgGrad_nonneg hD hG) hTm
  have hR0 : 0 ≤ R := by have := hR z hz z hz; linarith
  have hr1 : Real.exp (-(R / Tm)) ≤ 1 := Real.exp_le_one_iff.2 (by have := div_nonneg hR0 hTm.le; linarith)
  have ha1 : (Real.exp (-(2 * G / Tm)) / D) ^ D ≤ 1 := pow_le_one₀ (by positivity) hp1
  have hδ0 : 0 ≤ δ := by simp only [δ]; linarith
  have hδ1 : δ ≤ 1 := by
    have := mul_le_one₀ ha1 (Real.exp_pos (-(R / Tm))).le hr1
    simp only [δ]; linarith
  obtain ⟨y, hy, hopt⟩ := exists_optimum (E := fun x => obj x - pen x) hz
  have hy' := mem_validStates_two.1 hy
  let w : Fin D → ℤ := fun j => if j = ⟨0, hD⟩ then 1 - y j else y j
  have hw : w ∈ validStates 2 D := by
    rw [mem_validStates_two]; intro j; dsimp only [w]
    have := hy' j
    split_ifs <;> omega
  have hne : w ⟨0, hD⟩ ≠ y ⟨0, hD⟩ := by
    have := hy' ⟨0, hD⟩
    simp only [w, if_true]; omega
  have : Nonempty LBState := ⟨s⟩
  have H := gwgBatch_accRej (B := B) hD target (tiny := tiny) h (annealEnergy obj pen temp) (annealGrad g temp)
  have hmiss := H.miss_le_prod ht (look := fun t => logEvery ∣ t + 1)
    (A := optima (validStates 2 D) fun x => obj x - pen x)
    (Φ := fun v => open Classical in if (coChain (replay v.get (fun x => obj x - pen x) (fun t => temp t.toNat) ref)
      logEvery v.length ratio zero () x 0).best 0 < (obj z - pen z) / ref then 1 else 0)
    (fun v => by split_ifs <;> norm_num)
    (fun v hv => by rw [if_neg (shown_reports _ href h0 h1 zero x hz v hv)]) L 0 s [] x rfl hx'
  refine hmiss.trans ?_
  calc _ ≤ ∏ _b : Fin B, (1 - δ ^ M) ^ (L / M) := by
        refine Finset.prod_le_prod (fun b _ => (H.missSup_mem L 0 _ (hx' b)).1) fun b _ => ?_
        refine H.missSup_le hδ0 hδ1 (R := fun _ a b => ∃ i, b i ≠ a i ∧ ∀ j, j ≠ i → b j = a j) (N := L) ?_
          (M := M) (fun t x hx => reaches_odd (m := D) he hy hopt ?_ (fun x hx => ⟨_, ?_,
            Walk.sites mix_valid (fun _ _ _ _ h => h) x hx y hy⟩) t hx) (L / M) L (Nat.div_mul_le_self L M) 0
          (zero_add L).le _ (hx' b)
        · rintro k hk σ a ha c hc ⟨i, hi, hj⟩
          exact ⟨fun _ => i, gwgPropose_site (numFlips_pos hD σ.radius) ha hc hi hj,
            (gwgAdaptive_draw_ge hD hh ht hR hG hTm (hlow k hk) σ.radius ha _).2⟩
        · exact (Walk.single hy ⟨⟨0, hD⟩, hne, fun j hj => if_neg hj⟩).snoc hw
            ⟨⟨0, hD⟩, hne.symm, fun j hj => (if_neg hj).symm⟩
        · exact (Finset.card_filter_le _ _).trans (by simp)
    _ = _ := by rw [Finset.prod_const, Finset.card_univ, Fintype.card_fin]

/-! ## Any log interval -/

/-- Three halves and more are rounded to two or more. -/
theorem numFlips_ge_two (hD : 2 ≤ D) {r : ℝ} (hr : 3 / 2 ≤ r) : 2 ≤ numFlips D r := by
  have hfl : 1 ≤ ⌊r⌋ := Int.le_floor.2 (by push_cast; linarith)
  have : 2 ≤ roundHalfEven r := by
    unfold roundHalfEven
    rcases eq_or_lt_of_le hfl with e | e
    · simp only [← e]
      push_cast
      rw [if_neg (by linarith)]
      split_ifs <;> omega
    · dsimp only
      split_ifs <;> omega
  unfold numFlips
  omega

/-- Samples that differ in one site have distances of different parity to a third. -/
theorem parity_switch {a b y : Fin D → ℤ} (ha : a ∈ validStates 2 D) (hb : b ∈ validStates 2 D)
    (hy : y ∈ validStates 2 D) {i : Fin D} (hi : b i ≠ a i) (hj : ∀ j, j ≠ i → b j = a j) :
    Even (univ.filter fun j => y j ≠ a j).card ↔ ¬ Even (univ.filter fun j => y j ≠ b j).card := by
  have hai := mem_validStates_two.1 ha i
  have hbi := mem_validStates_two.1 hb i
  have hyi := mem_validStates_two.1 hy i
  have hiff : y i ≠ a i ↔ ¬ y i ≠ b i := by
    constructor
    · intro h1 h2; omega
    · intro h1; push Not at h1; rw [h1]; exact hi
  by_cases h : y i ≠ a i
  · have e : (univ.filter fun j => y j ≠ a j) = insert i (univ.filter fun j => y j ≠ b j) := by
      ext j
      simp only [mem_filter, mem_univ, true_and, mem_insert]
      by_cases hji : j = i
      · subst hji; simp [h]
      · rw [hj j hji]; simp [hji]
    rw [e, card_insert_of_notMem (by simp only [mem_filter, mem_univ, true_and]; exact hiff.1 h), Nat.even_add_one]
  · have e : (univ.filter fun j => y j ≠ b j) = insert i (univ.filter fun j => y j ≠ a j) := by
      have h' : y i ≠ b i := by by_contra h2; exact h (hiff.2 (not_not.2 h2))
      ext j
      simp only [mem_filter, mem_univ, true_and, mem_insert]
      by_cases hji : j = i
      · subst hji; simp [h']
      · rw [hj j hji]; simp [hji]
    rw [e, card_insert_of_notMem (by simp only [mem_filter, mem_univ, true_and]; exact h), Nat.even_add_one, not_not]

/-- Single flips lead to a sample in any number of steps of the right parity that is large enough. -/
theorem flips_walk (hD : 0 < D) {a y : Fin D → ℤ} (ha : a ∈ validStates 2 D) (hy : y ∈ validStates 2 D) {n : ℕ}
    (hn : D ≤ n) (hpar : Even (univ.filter fun j => y j ≠ a j).card ↔ Even n) :
    Walk (validStates 2 D) (fun a b => ∃ i, b i ≠ a i ∧ ∀ j, j ≠ i → b j = a j) n a y := by
  have hc : (univ.filter fun j => y j ≠ a j).card ≤ D := (Finset.card_filter_le _ _).trans (by simp)
  set d := (univ.filter fun j => y j ≠ a j).card with hd
  have hw : Walk (validStates 2 D) (fun a b => ∃ i, b i ≠ a i ∧ ∀ j, j ≠ i → b j = a j) d a y :=
    Walk.sites mix_valid (fun _ _ _ _ h => h) a ha y hy
  have hback : Walk (validStates 2 D) (fun a b => ∃ i, b i ≠ a i ∧ ∀ j, j ≠ i → b j = a j) 2 y y := by
    have hne : oneFlip y ⟨0, hD⟩ ⟨0, hD⟩ ≠ y ⟨0, hD⟩ := by
      have := mem_validStates_two.1 hy ⟨0, hD⟩
      unfold oneFlip; rw [Function.update_self]; omega
    have hoth : ∀ j, j ≠ (⟨0, hD⟩ : Fin D) → oneFlip y ⟨0, hD⟩ j = y j := fun j hj => Function.update_of_ne hj _ _
    exact (Walk.single hy ⟨⟨0, hD⟩, hne, hoth⟩).snoc (oneFlip_valid hy _)
      ⟨⟨0, hD⟩, hne.symm, fun j hj => (hoth j hj).symm⟩
  have hpow : ∀ i, Walk (validStates 2 D) (fun a b => ∃ i, b i ≠ a i ∧ ∀ j, j ≠ i → b j = a j) (d + 2 * i) a y := by
    intro i
    induction i with
    | zero => exact hw
    | succ i ih => have := ih.trans hback; rwa [add_assoc] at this
  have : Even (n - d) := by
    rw [Nat.even_sub (hc.trans hn)]; exact hpar.symm
  obtain ⟨c, hc'⟩ := this
  have e : n = d + 2 * c := by omega
  rw [e]; exact hpow c

section AnyInterval

variable {name : String} {h : ℝ → ℝ} {obj pen : (Fin D → ℤ) → ℝ} {g : (Fin D → ℤ) → Fin D → ℝ} {temp : ℕ → ℝ}
  {target R G Tm tiny : ℝ}

theorem CanShow.mono {X St : Type*} {Ω : St → Type*} [∀ s, Fintype (Ω s)] {tiny δ : ℝ} {p : ℕ → ∀ s, X → Ω s → ℝ}
    {mv : ℕ → ∀ s, X → Ω s → X} {la : ℕ → ∀ s, X → Ω s → ℝ} {nx : ℕ → ∀ s, (Fin B → X) → (Fin B → Ω s) → St}
    {look : ℕ → Prop} {A : Finset X} {m : ℕ} : ∀ {m' k : ℕ} {s : St} {x : Fin B → X}, m ≤ m' →
      CanShow tiny δ p mv la nx look A m k s x → CanShow tiny δ p mv la nx look A m' k s x := by
  induction m with
  | zero => intro m' k s x _ hs; exact absurd hs id
  | succ m ih =>
    rintro m' k s x hm ⟨ω, a, hw, hs⟩
    obtain ⟨m', rfl⟩ : ∃ n, m' = n + 1 := ⟨m' - 1, by omega⟩
    exact ⟨ω, a, hw, hs.imp_right (ih (by omega))⟩

theorem stepWeight_ge {X St : Type*} {Ω : St → Type*} [∀ s, Fintype (Ω s)] {tiny c : ℝ} {p : ℕ → ∀ s, X → Ω s → ℝ}
    {la : ℕ → ∀ s, X → Ω s → ℝ} (hc : 0 ≤ c) {k : ℕ} {s : St} {x : Fin B → X} {ω : Fin B → Ω s} {a : Fin B → Bool}
    (hb : ∀ b, c ≤ p k s (x b) (ω b) *
      if a b then acceptProb tiny (la k s (x b) (ω b)) else 1 - acceptProb tiny (la k s (x b) (ω b))) :
    c ^ B ≤ stepWeight tiny p la k s x ω a := by
  unfold stepWeight patProb
  rw [← Finset.prod_mul_distrib]
  calc c ^ B = ∏ _b : Fin B, c := by rw [Finset.prod_const, Finset.card_univ, Fintype.card_fin]
    _ ≤ _ := Finset.prod_le_prod (fun _ _ => hc) fun b _ => hb b

variable (hD : 2 ≤ D) (hh : ∀ v, applyWeightLog name v = .ok (h v)) (ht : 0 ≤ tiny)
  (hR : ∀ x ∈ validStates 2 D, ∀ y ∈ validStates 2 D, (obj x - pen x) - (obj y - pen y) ≤ R)
  (hG : ∀ x ∈ validStates 2 D, ∀ j, |g x j| ≤ G) (hTm : 0 < Tm) {N : ℕ} (hlow : ∀ t < N, Tm ≤ temp (t + 1))
  {κ : ℝ} (hκ0 : 0 ≤ κ) (hκ : κ ≤ (Real.exp (-(2 * G / Tm)) / D) ^ D * Real.exp (-(R / Tm)) - tiny)

/-- The batch of an annealed run of adaptive GWG shows an element of `A` at a step someone looks at. -/
abbrev GwgCanShow (hD : 0 < D) (h : ℝ → ℝ) (obj pen : (Fin D → ℤ) → ℝ) (g : (Fin D → ℤ) → Fin D → ℝ) (temp : ℕ → ℝ)
    (target tiny δ : ℝ) (look : ℕ → Prop) (A : Finset (Fin D → ℤ)) (m k : ℕ) (s : LBState)
    (x : Fin B → Fin D → ℤ) : Prop :=
  CanShow (Ω := fun s : LBState => Fin (numFlips D s.radius) → Fin D) tiny δ (fun t => gwgLaws h (annealGrad g temp t))
    (fun _ _ x idx => gwgPropose x idx)
    (fun t _ x idx => gwgLogAcc h (annealEnergy obj pen temp t) (annealGrad g temp t) none x idx)
    (fun t s x idx => (gwgBatchMove hD target tiny h (annealEnergy obj pen temp t) (annealGrad g temp t) s x idx
      fun _ => 0).2) look A m k s x

include hh ht hR hG hTm hlow hκ0 hκ in
/-- One chain follows a walk of single flips while the others flip their first site. -/
theorem gwg_canShow_walk {look : ℕ → Prop} {A : Finset (Fin D → ℤ)} {y : Fin D → ℤ} (hy : y ∈ validStates 2 D)
    (hA : y ∈ A) (b : Fin B) (n : ℕ) : ∀ k s (x : Fin B → Fin D → ℤ), (∀ b, x b ∈ validStates 2 D) → k + n < N →
      look (k + n) →
      Walk (validStates 2 D) (fun a b => ∃ i, b i ≠ a i ∧ ∀ j, j ≠ i → b j = a j) (n + 1) (x b) y →
      GwgCanShow (by omega) h obj pen g temp target tiny (κ ^ B) look A (n + 1) k s x := by
  have hD0 : 0 < D := by omega
  induction n with
  | zero =>
    intro k s x hx hk hl hw
    obtain ⟨c, hc, ⟨i, hi, hj⟩, rfl⟩ := Walk.cons (hx b) hy hw
    refine ⟨fun b' _ => if b' = b then i else ⟨0, hD0⟩, fun _ => true, stepWeight_ge hκ0 fun b' => ?_,
      Or.inl ⟨hl, b, ?_⟩⟩
    · exact hκ.trans (gwgAdaptive_draw_ge hD0 hh ht hR hG hTm (hlow k (by omega)) s.radius (hx b') _).2
    · simp only [sel, if_true]
      rw [gwgPropose_site (numFlips_pos hD0 s.radius) (hx b) hc hi hj]
      exact hA
  | succ n ih =>
    intro k s x hx hk hl hw
    obtain ⟨c, hc, ⟨i, hi, hj⟩, hrest⟩ := Walk.cons (hx b) hy hw
    refine ⟨fun b' _ => if b' = b then i else ⟨0, hD0⟩, fun _ => true, stepWeight_ge hκ0 fun b' => ?_,
      Or.inr (ih (k + 1) _ _ (fun b' => ?_) (by omega) (by rwa [add_assoc, add_comm 1 n]) ?_)⟩
    · exact hκ.trans (gwgAdaptive_draw_ge hD0 hh ht hR hG hTm (hlow k (by omega)) s.radius (hx b') _).2
    · simp only [sel, if_true]
      exact gwgPropose_valid (hx b') _
    · simp only [sel, if_true]
      rwa [gwgPropose_site (numFlips_pos hD0 s.radius) (hx b) hc hi hj]

include hD hh ht hR hG hTm hlow hκ0 hκ in
/-- A step after which the sample of one chain may be one of two that differ in one site. -/
theorem gwg_canShow_fork {e : ℕ} (he : 0 < e) {A : Finset (Fin D → ℤ)} {y : Fin D → ℤ} (hy : y ∈ validStates 2 D)
    (hA : y ∈ A) (b : Fin B) {k : ℕ} {s : LBState} {x : Fin B → Fin D → ℤ} (hx : ∀ b, x b ∈ validStates 2 D)
    (hk : k + (1 + D + e) ≤ N) {ω₁ ω₂ : Fin B → Fin (numFlips D s.radius) → Fin D} {a₁ a₂ : Fin B → Bool}
    (hw₁ : κ ^ B ≤ stepWeight (Ω := fun s : LBState => Fin (numFlips D s.radius) → Fin D) tiny
      (fun t => gwgLaws h (annealGrad g temp t))
      (fun t _ x idx => gwgLogAcc h (annealEnergy obj pen temp t) (annealGrad g temp t) none x idx) k s x ω₁ a₁)
    (hw₂ : κ ^ B ≤ stepWeight (Ω := fun s : LBState => Fin (numFlips D s.radius) → Fin D) tiny
      (fun t => gwgLaws h (annealGrad g temp t))
      (fun t _ x idx => gwgLogAcc h (annealEnergy obj pen temp t) (annealGrad g temp t) none x idx) k s x ω₂ a₂)
    {i : Fin D}
    (hi : sel (fun b => gwgPropose (x b) (ω₂ b)) x a₂ b i ≠ sel (fun b => gwgPropose (x b) (ω₁ b)) x a₁ b i)
    (hj : ∀ j, j ≠ i →
      sel (fun b => gwgPropose (x b) (ω₂ b)) x a₂ b j = sel (fun b => gwgPropose (x b) (ω₁ b)) x a₁ b j) :
    GwgCanShow (by omega) h obj pen g temp target tiny (κ ^ B) (fun t => e ∣ t + 1) A (1 + D + e) k s x := by
  have hD0 : 0 < D := by omega
  obtain ⟨n, h1, h2, h3⟩ := exists_logged he (k + 1) D
  have v₁ : ∀ b, sel (fun b => gwgPropose (x b) (ω₁ b)) x a₁ b ∈ validStates 2 D :=
    sel_mem (fun b => gwgPropose_valid (hx b) _) hx a₁
  have v₂ : ∀ b, sel (fun b => gwgPropose (x b) (ω₂ b)) x a₂ b ∈ validStates 2 D :=
    sel_mem (fun b => gwgPropose_valid (hx b) _) hx a₂
  have hsw := parity_switch (v₁ b) (v₂ b) hy hi hj
  have hlen : 1 + D + e = (D + e) + 1 := by omega
  rw [GwgCanShow, hlen]
  by_cases hpar : Even (univ.filter fun j => y j ≠ sel (fun b => gwgPropose (x b) (ω₁ b)) x a₁ b j).card ↔ Even (n + 1)
  · refine ⟨ω₁, a₁, hw₁, Or.inr (CanShow.mono h2 ?_)⟩
    exact gwg_canShow_walk hD hh ht hR hG hTm hlow hκ0 hκ hy hA b n (k + 1) _ _ v₁ (by omega) h3
      (flips_walk hD0 (v₁ b) hy (by omega) hpar)
  · refine ⟨ω₂, a₂, hw₂, Or.inr (CanShow.mono h2 ?_)⟩
    exact gwg_canShow_walk hD hh ht hR hG hTm hlow hκ0 hκ hy hA b n (k + 1) _ _ v₂ (by omega) h3
      (flips_walk hD0 (v₂ b) hy (by omega) (by tauto))

include hD hh ht hR hG hTm hlow hκ0 hκ in
/-- As long as one draw is made per step, either some proposal may be rejected or the radius grows. -/
theorem gwg_canShow_grow [NeZero B] {ε : ℝ} (hε : 0 < ε) (htar : target + 2 * ε ≤ 1)
    (hκ2 : κ ≤ (Real.exp (-(2 * G / Tm)) / D) ^ D * ε) {e : ℕ} (he : 0 < e) {A : Finset (Fin D → ℤ)} {y : Fin D → ℤ}
    (hy : y ∈ validStates 2 D) (hA : y ∈ A) (c : ℕ) : ∀ k s (x : Fin B → Fin D → ℤ), (∀ b, x b ∈ validStates 2 D) →
      k + (c + (1 + D + e)) ≤ N → 3 / 2 - c * ε ≤ s.radius →
      GwgCanShow (by omega) h obj pen g temp target tiny (κ ^ B) (fun t => e ∣ t + 1) A (c + (1 + D + e)) k s x := by
  have hD0 : 0 < D := by omega
  have hDr : (2 : ℝ) ≤ D := by exact_mod_cast hD
  -- the draws and their weight
  have hacc : ∀ k < N, ∀ (s : LBState) (x : Fin B → Fin D → ℤ), (∀ b, x b ∈ validStates 2 D) →
      ∀ ω : Fin B → Fin (numFlips D s.radius) → Fin D,
      κ ^ B ≤ stepWeight (Ω := fun s : LBState => Fin (numFlips D s.radius) → Fin D) tiny
        (fun t => gwgLaws h (annealGrad g temp t))
        (fun t _ x idx => gwgLogAcc h (annealEnergy obj pen temp t) (annealGrad g temp t) none x idx) k s x ω
        fun _ => true := by
    intro k hk s x hx ω
    exact stepWeight_ge hκ0 fun b =>
      hκ.trans (gwgAdaptive_draw_ge hD0 hh ht hR hG hTm (hlow k hk) s.radius (hx b) _).2
  -- two draws or more
  have htwo : ∀ k s (x : Fin B → Fin D → ℤ), (∀ b, x b ∈ validStates 2 D) → k + (1 + D + e) ≤ N →
      2 ≤ numFlips D s.radius →
      GwgCanShow (by omega) h obj pen g temp target tiny (κ ^ B) (fun t => e ∣ t + 1) A (1 + D + e) k s x := by
    intro k s x hx hk hns
    refine gwg_canShow_fork hD hh ht hR hG hTm hlow hκ0 hκ he hy hA 0 hx hk
      (hacc k (by omega) s x hx fun _ _ => ⟨0, hD0⟩)
      (hacc k (by omega) s x hx fun _ t => if (t : ℕ) = 0 then ⟨0, hD0⟩ else ⟨1, hD⟩) (i := ⟨1, hD⟩) ?_ ?_
    · simp only [sel, if_true, gwgPropose]
      rw [if_pos ⟨⟨1, hns⟩, by simp⟩, if_neg (by rintro ⟨_, h⟩; simp at h)]
      have := mem_validStates_two.1 (hx 0) ⟨1, hD⟩
      omega
    · intro j hj
      simp only [sel, if_true, gwgPropose]
      refine if_congr ⟨?_, ?_⟩ rfl rfl
      · rintro ⟨t, htj⟩
        split_ifs at htj
        · exact ⟨t, htj⟩
        · exact absurd htj.symm hj
      · rintro ⟨t, htj⟩
        exact ⟨⟨0, by omega⟩, by simpa using htj⟩
  induction c with
  | zero =>
    intro k s x hx hk hr
    rw [Nat.cast_zero, zero_mul, sub_zero] at hr
    rw [Nat.zero_add] at hk ⊢
    exact htwo k s x hx hk (numFlips_ge_two hD hr)
  | succ c ih =>
    intro k s x hx hk hr
    by_cases hns : 2 ≤ numFlips D s.radius
    · exact CanShow.mono (by omega) (htwo k s x hx (by omega) hns)
    · have h1 : numFlips D s.radius = 1 := by have := numFlips_pos hD0 s.radius; omega
      have hfl : ∀ b j, gwgPropose (x b) (fun _ : Fin (numFlips D s.radius) => (⟨0, hD0⟩ : Fin D)) j =
          if j = ⟨0, hD0⟩ then 1 - x b j else x b j := by
        intro b j
        unfold gwgPropose
        refine if_congr ⟨fun ⟨_, e⟩ => e.symm, fun e => ⟨⟨0, by omega⟩, e.symm⟩⟩ rfl rfl
      by_cases hrej : ∃ b, Real.exp (min (gwgLogAcc h (annealEnergy obj pen temp k) (annealGrad g temp k) none (x b)
          (fun _ : Fin (numFlips D s.radius) => (⟨0, hD0⟩ : Fin D))) 0) ≤ 1 - ε
      · obtain ⟨b, hb⟩ := hrej
        refine CanShow.mono (m := 1 + D + e) (by omega) ?_
        refine gwg_canShow_fork hD hh ht hR hG hTm hlow hκ0 hκ he hy hA b hx (by omega)
          (ω₁ := fun _ _ => ⟨0, hD0⟩) (ω₂ := fun _ _ => ⟨0, hD0⟩) (a₁ := fun b' => decide (b' ≠ b)) (a₂ := fun _ => true)
          (stepWeight_ge hκ0 fun b' => ?_) (hacc k (by omega) s x hx _) (i := ⟨0, hD0⟩) ?_ ?_
        · have hd := gwgAdaptive_draw_ge hD0 hh ht hR hG hTm (hlow k (by omega)) s.radius (hx b')
            (fun _ : Fin (numFlips D s.radius) => (⟨0, hD0⟩ : Fin D)) (obj := obj) (pen := pen)
          by_cases hbb : b' = b
          · subst hbb
            simp only [ne_eq, not_true_eq_false, decide_false, Bool.false_eq_true, if_false]
            have hap : acceptProb tiny (gwgLogAcc h (annealEnergy obj pen temp k) (annealGrad g temp k) none (x b')
                (fun _ : Fin (numFlips D s.radius) => (⟨0, hD0⟩ : Fin D))) ≤ 1 - ε := by
              refine le_trans ?_ hb
              unfold acceptProb
              refine max_le (Real.exp_pos _).le ?_
              rcases le_total (gwgLogAcc h (annealEnergy obj pen temp k) (annealGrad g temp k) none (x b')
                (fun _ : Fin (numFlips D s.radius) => (⟨0, hD0⟩ : Fin D))) 0 with hle | hle
              · rw [min_eq_left hle]; exact (min_le_right _ _).trans (by linarith)
              · rw [min_eq_right hle, Real.exp_zero]; exact min_le_left _ _
            refine hκ2.trans (mul_le_mul hd.1 (by linarith) hε.le ?_)
            exact (by positivity : (0 : ℝ) ≤ (Real.exp (-(2 * G / Tm)) / D) ^ D).trans hd.1
          · simp only [ne_eq, hbb, not_false_eq_true, decide_true, if_true]
            exact hκ.trans hd.2
        · simp only [sel, ne_eq, not_true_eq_false, decide_false, Bool.false_eq_true, if_false, if_true, hfl]
          have := mem_validStates_two.1 (hx b) ⟨0, hD0⟩
          omega
        · intro j hj
          simp only [sel, ne_eq, not_true_eq_false, decide_false, Bool.false_eq_true, if_false, if_true, hfl, if_neg hj]
      · push Not at hrej
        rw [GwgCanShow, show c + 1 + (1 + D + e) = (c + (1 + D + e)) + 1 by omega]
        refine ⟨fun _ _ => ⟨0, hD0⟩, fun _ => true, hacc k (by omega) s x hx _, Or.inr (ih (k + 1) _ _
          (sel_mem (fun b => gwgPropose_valid (hx b) _) hx _) (by omega) ?_)⟩
        rw [gwgBatch_radius]
        have hB : (0 : ℝ) < B := by exact_mod_cast Nat.pos_of_ne_zero (NeZero.ne B)
        have hmean : 1 - ε ≤ (∑ b, Real.exp (min (gwgLogAcc h (annealEnergy obj pen temp k) (annealGrad g temp k) none (x b)
            (fun _ : Fin (numFlips D s.radius) => (⟨0, hD0⟩ : Fin D))) 0)) / B := by
          rw [le_div_iff₀ hB]
          calc (1 - ε) * B = ∑ _b : Fin B, (1 - ε) := by simp; ring
            _ ≤ _ := Finset.sum_le_sum fun b _ => (hrej b).le
        have hc0 : (0 : ℝ) ≤ c := Nat.cast_nonneg c
        have hce : 0 ≤ (c : ℝ) * ε := mul_nonneg hc0 hε.le
        push_cast at hr
        refine le_min (le_max_of_le_left ?_) ?_
        · linarith
        · linarith

include hD hh ht hR hG hTm hκ0 hκ in
/-- **C116 (adaptive GWG, any log interval).** If the target acceptance rate is below one and there are two sites or more,
the probability that a run of a batch with a shared radius reports less than the optimum shrinks geometrically in the length
of the run, whatever the log interval: if proposals are accepted almost surely the radius grows until two sites are drawn. -/
theorem gwgAdaptive_reports [NeZero B] (htar : target < 1)
    (hκ2 : κ ≤ (Real.exp (-(2 * G / Tm)) / D) ^ D * ((1 - target) / 2)) (L : ℕ) (hlow : ∀ t < L, Tm ≤ temp (t + 1))
    {ref : ℝ} (href : 0 < ref) {logEvery : ℕ} (he : 0 < logEvery) {ratio : ℝ} (h0 : 0 ≤ ratio) (h1 : ratio ≤ 1)
    (zero : Fin D → ℤ) (s : LBState) {z : Fin D → ℤ} (hz : z ∈ validStates 2 D) {x : Fin B → Fin D → ℤ}
    (hx : x ∈ prodStates B (validStates 2 D)) :
    let M := ⌈1 / (1 - target)⌉₊ + D + logEvery + 2
    adaptiveShortfall (fun t => gwgLaws h (annealGrad g temp t))
        (fun t => gwgBatchMove (by omega) target tiny h (annealEnergy obj pen temp t) (annealGrad g temp t))
        (fun x => obj x - pen x) (fun t => temp t.toNat) ref logEvery L ratio zero s x z ≤
      (1 - (κ ^ B) ^ M) ^ (L / M) := by
  intro M
  have hD0 : 0 < D := by omega
  have hDr : (2 : ℝ) ≤ D := by exact_mod_cast hD
  have hx' := mem_prodStates.1 hx
  have hp1 : Real.exp (-(2 * G / Tm)) / D ≤ 1 := gwgFloor_le_one hD0 (gwgGrad_nonneg hD0 hG) hTm
  have hR0 : 0 ≤ R := by have := hR z hz z hz; linarith
  have hr1 : Real.exp (-(R / Tm)) ≤ 1 := Real.exp_le_one_iff.2 (by have := div_nonneg hR0 hTm.le; linarith)
  have ha1 : (Real.exp (-(2 * G / Tm)) / D) ^ D ≤ 1 := pow_le_one₀ (by positivity) hp1
  have hκ1 : κ ≤ 1 := by
    have := mul_le_one₀ ha1 (Real.exp_pos (-(R / Tm))).le hr1
    linarith
  obtain ⟨y, hy, hopt⟩ := exists_optimum (E := fun x => obj x - pen x) hz
  have H := gwgBatch_accRej (B := B) hD0 target (tiny := tiny) h (annealEnergy obj pen temp) (annealGrad g temp)
  have hcan : ∀ k, k + M ≤ L → ∀ s (x : Fin B → Fin D → ℤ), (∀ b, x b ∈ validStates 2 D) →
      GwgCanShow hD0 h obj pen g temp target tiny (κ ^ B) (fun t => logEvery ∣ t + 1)
        (optima (validStates 2 D) fun x => obj x - pen x) M k s x := by
    intro k hk s x hx
    have hM : M = (⌈1 / (1 - target)⌉₊ + (1 + D + logEvery)) + 1 := by simp only [M]; omega
    rw [GwgCanShow, hM]
    refine ⟨fun _ _ => ⟨0, hD0⟩, fun _ => true, stepWeight_ge hκ0 fun b => ?_, Or.inr ?_⟩
    · exact hκ.trans (gwgAdaptive_draw_ge hD0 hh ht hR hG hTm (hlow k (by omega)) s.radius (hx b) _).2
    · refine gwg_canShow_grow hD hh ht hR hG hTm hlow hκ0 hκ (ε := (1 - target) / 2) (by linarith) (by linarith) hκ2 he hy
        hopt _ (k + 1) _ _ (sel_mem (fun b => gwgPropose_valid (hx b) _) hx _) (by omega) ?_
      rw [gwgBatch_radius]
      have hceil := Nat.le_ceil (1 / (1 - target))
      have h2 : (1 : ℝ) ≤ ⌈1 / (1 - target)⌉₊ * (1 - target) := by
        rwa [div_le_iff₀ (by linarith)] at hceil
      refine le_min (le_max_of_le_right ?_) ?_ <;> linarith
  exact H.miss_le ht (look := fun t => logEvery ∣ t + 1) (A := optima (validStates 2 D) fun x => obj x - pen x)
    (Φ := fun v => open Classical in if (coChain (replay v.get (fun x => obj x - pen x) (fun t => temp t.toNat) ref)
      logEvery v.length ratio zero () x 0).best 0 < (obj z - pen z) / ref then 1 else 0)
    (fun v => by split_ifs <;> norm_num)
    (fun v hv => by rw [if_neg (shown_reports _ href h0 h1 zero x hz v hv)]) (pow_nonneg hκ0 B)
    (pow_le_one₀ hκ0 hκ1) hcan (L / M) L (Nat.div_mul_le_self L M) 0 s [] x rfl (by omega) hx'

end AnyInterval

/-- **C116 (adaptive GWG, long runs).** With any schedules bounded below by a positive temperature, long runs report the
optimum with probability close to one. -/
theorem gwgAdaptive_reports_long [NeZero B] (hD : 2 ≤ D) {name : String} {h : ℝ → ℝ}
    (hh : ∀ v, applyWeightLog name v = .ok (h v)) (obj pen : (Fin D → ℤ) → ℝ) {g : (Fin D → ℤ) → Fin D → ℝ}
    {target R G Tm tiny : ℝ} (ht : 0 ≤ tiny)
    (hR : ∀ x ∈ validStates 2 D, ∀ y ∈ validStates 2 D, (obj x - pen x) - (obj y - pen y) ≤ R)
    (hG : ∀ x ∈ validStates 2 D, ∀ j, |g x j| ≤ G) (hTm : 0 < Tm) (htar : target < 1)
    (hδ : tiny < (Real.exp (-(2 * G / Tm)) / D) ^ D * Real.exp (-(R / Tm))) {ref : ℝ} (href : 0 < ref) {logEvery : ℕ}
    (he : 0 < logEvery) {ratio : ℝ} (h0 : 0 ≤ ratio) (h1 : ratio ≤ 1) {ε : ℝ} (hε : 0 < ε) :
    ∃ n₀, ∀ L ≥ n₀, ∀ temp : ℕ → ℝ, (∀ t < L, Tm ≤ temp (t + 1)) → ∀ (zero : Fin D → ℤ) (s : LBState),
      ∀ z ∈ validStates 2 D, ∀ x ∈ prodStates B (validStates 2 D),
      adaptiveShortfall (fun t => gwgLaws h (annealGrad g temp t))
        (fun t => gwgBatchMove (by omega) target tiny h (annealEnergy obj pen temp t) (annealGrad g temp t))
        (fun x => obj x - pen x) (fun t => temp t.toNat) ref logEvery L ratio zero s x z ≤ ε := by
  have hD0 : 0 < D := by omega
  have hD' : (0 : ℝ) < D := by exact_mod_cast hD0
  have hz0 : (fun _ => 0 : Fin D → ℤ) ∈ validStates 2 D := mem_validStates_two.2 fun _ => Or.inl rfl
  have hp1 : Real.exp (-(2 * G / Tm)) / D ≤ 1 := gwgFloor_le_one hD0 (gwgGrad_nonneg hD0 hG) hTm
  have hR0 : 0 ≤ R := by have := hR _ hz0 _ hz0; linarith
  have hr1 : Real.exp (-(R / Tm)) ≤ 1 := Real.exp_le_one_iff.2 (by have := div_nonneg hR0 hTm.le; linarith)
  have ha1 : (Real.exp (-(2 * G / Tm)) / D) ^ D ≤ 1 := pow_le_one₀ (by positivity) hp1
  have ha0 : 0 < (Real.exp (-(2 * G / Tm)) / D) ^ D := by positivity
  set κ := min ((Real.exp (-(2 * G / Tm)) / D) ^ D * Real.exp (-(R / Tm)) - tiny)
    ((Real.exp (-(2 * G / Tm)) / D) ^ D * ((1 - target) / 2)) with hκ
  have hκ0 : 0 < κ := lt_min (by linarith) (mul_pos ha0 (by linarith))
  have hκ1 : κ ≤ 1 := by
    have := mul_le_one₀ ha1 (Real.exp_pos (-(R / Tm))).le hr1
    exact (min_le_left _ _).trans (by linarith)
  set M := ⌈1 / (1 - target)⌉₊ + D + logEvery + 2 with hM
  have hq0 : 0 < (κ ^ B) ^ M := pow_pos (pow_pos hκ0 B) M
  have hq1 : (κ ^ B) ^ M ≤ 1 := pow_le_one₀ (pow_nonneg hκ0.le B) (pow_le_one₀ hκ0.le hκ1)
  have hlim := tendsto_pow_atTop_nhds_zero_of_lt_one (r := 1 - (κ ^ B) ^ M) (by linarith) (by linarith)
  obtain ⟨m, hm⟩ := (hlim.eventually (gt_mem_nhds hε)).exists_forall_of_atTop
  refine ⟨m * M, fun L hL temp hlow zero s z hz x hx => ?_⟩
  refine (gwgAdaptive_reports hD hh ht hR hG hTm hκ0.le (min_le_left _ _) htar (min_le_right _ _) L hlow href he h0 h1 zero s
    hz hx).trans ?_
  exact (hm (L / M) ((Nat.le_div_iff_mul_le (by omega)).2 hL)).le

/-- Two sites, three chains, a log interval of 100 steps, the code's acceptance test and target rate. -/
example {ε : ℝ} (hε : 0 < ε) : ∃ n₀, ∀ L ≥ n₀, ∀ temp : ℕ → ℝ, (∀ t < L, 1 ≤ temp (t + 1)) → ∀ (zero : Fin 2 → ℤ)
    (s : LBState), ∀ z ∈ validStates 2 2, ∀ x ∈ prodStates 3 (validStates 2 2),
    adaptiveShortfall (B := 3) (fun t => gwgLaws (· / 2) (annealGrad (fun _ _ => 1) temp t))
      (fun t => gwgBatchMove (D := 2) (by norm_num) (574 / 1000) mhTiny (· / 2)
        (annealEnergy (fun x => ((x 0 + x 1 : ℤ) : ℝ)) (fun _ => 0) temp t) (annealGrad (fun _ _ => 1) temp t))
      (fun x => ((x 0 + x 1 : ℤ) : ℝ) - 0) (fun t => temp t.toNat) 2 100 L 1 zero s x z ≤ ε := by
  refine gwgAdaptive_reports_long (D := 2) (name := "SQRT") (G := 1) (R := 2) (Tm := 1) le_rfl (fun v => rfl)
    (fun x => ((x 0 + x 1 : ℤ) : ℝ)) (fun _ => 0) (by unfold mhTiny; norm_num) (fun x hx y hy => ?_) (fun x hx j => by norm_num)
    one_pos (by norm_num) ?_ two_pos (by norm_num) zero_le_one le_rfl hε
  · have h0 := mem_validStates_two.1 hx 0
    have h1 := mem_validStates_two.1 hx 1
    have h2 := mem_validStates_two.1 hy 0
    have h3 := mem_validStates_two.1 hy 1
    have : x 0 + x 1 - (y 0 + y 1) ≤ 2 := by omega
    have : ((x 0 + x 1 - (y 0 + y 1) : ℤ) : ℝ) ≤ ((2 : ℤ) : ℝ) := by exact_mod_cast this
    push_cast at this ⊢
    linarith
  · have h9 : (1 / 9 : ℝ) ≤ Real.exp (-2) := by
      have h2 := Real.exp_one_lt_d9
      have h3 := Real.exp_pos 1
      have h4 : Real.exp 2 ≤ 9 := by
        rw [show (2 : ℝ) = 1 + 1 by norm_num, Real.exp_add]; nlinarith
      rw [Real.exp_neg, ← one_div]
      exact one_div_le_one_div_of_le (Real.exp_pos 2) h4
    have e1 : -(2 * 1 / 1 : ℝ) = -2 := by norm_num
    have e2 : -(2 / 1 : ℝ) = -2 := by norm_num
    rw [e1, e2]
    calc mhTiny < ((1 / 9 : ℝ) / (2 : ℕ)) ^ 2 * (1 / 9) := by norm_num [mhTiny]
      _ ≤ _ := by gcongr

/-- The same run with every step logged. -/
example (L : ℕ) (temp : ℕ → ℝ) (hlow : ∀ t < L, 1 ≤ temp (t + 1)) (zero : Fin 2 → ℤ) (s : LBState) {z : Fin 2 → ℤ}
    (hz : z ∈ validStates 2 2) {x : Fin 3 → Fin 2 → ℤ} (hx : x ∈ prodStates 3 (validStates 2 2)) :
    adaptiveShortfall (B := 3) (fun t => gwgLaws (· / 2) (annealGrad (fun _ _ => 0) temp t))
      (fun t => gwgBatchMove (D := 2) (by norm_num) (574 / 1000) 0 (· / 2)
        (annealEnergy (fun x => (x 0 : ℝ)) (fun _ => 0) temp t) (annealGrad (fun _ _ => 0) temp t))
      (fun x => (x 0 : ℝ) - 0) (fun t => temp t.toNat) 1 1 L 1 zero s x z ≤
      ((1 - ((Real.exp (-(2 * 0 / 1)) / (2 : ℕ)) ^ 2 * Real.exp (-(1 / 1)) - 0) ^ (2 + 2 * 1)) ^ (L / (2 + 2 * 1))) ^ 3 := by
  refine gwgAdaptive_reports_odd (D := 2) (by norm_num) (name := "SQRT") (fun v => rfl) (fun x => (x 0 : ℝ)) (fun _ => 0) temp
    _ s (R := 1) (G := 0) (Tm := 1) le_rfl (fun x hx y hy => ?_) (by simp) one_pos L hlow (by positivity) one_pos odd_one
    zero_le_one le_rfl zero hz hx
  rcases mem_validStates_two.1 hx 0 with a | a <;> rcases mem_validStates_two.1 hy 0 with b | b <;>
    rw [a, b] <;> norm_num

/-- A run without steps reports nothing, with probability one. -/
example [NeZero B] {St : Type*} {Ω : St → Type*} [∀ s, Fintype (Ω s)] (p : ℕ → ∀ s, (Fin D → ℤ) → Ω s → ℝ)
    (step : ℕ → ∀ s, (Fin B → Fin D → ℤ) → (Fin B → Ω s) → (Fin B → ℝ) → (Fin B → Fin D → ℤ) × St)
    (temp : ℤ → ℝ) (logEvery : ℕ) (zero : Fin D → ℤ) (s : St) (x : Fin B → Fin D → ℤ) (z : Fin D → ℤ) :
    adaptiveShortfall p step (fun _ => 1) temp 1 logEvery 0 1 zero s x z = 1 := by
  unfold adaptiveShortfall batchExpect
  refine if_pos ?_
  rcases (co_best (replay (List.get []) (fun _ => 1) temp 1) logEvery 0 1 zero_le_one le_rfl zero () x 0 0
    one_pos).1 with e | ⟨t, h1, h2, -⟩
  · exact lt_of_eq_of_lt e (by norm_num)
  · omega

end Discs
