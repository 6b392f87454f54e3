import Verif.Lemmas.Report
import Verif.Model.AnnealBatch
import Verif.Props.AnnealBest
import Verif.Props.AnnealGibbs
import Verif.Props.Search

/-!
# Property C116: what a long combinatorial run reports
-/

namespace Discs

open Finset Spec Filter

variable {D B : ℕ}

/-- Probability that a run of `L` steps of `B` chains, step `t + 1` of which has kernel `KB t`, reports a best ratio
below that of the sample `z`. -/
noncomputable def shortfall (S : Finset (Fin D → ℤ)) (KB : ℕ → (Fin B → Fin D → ℤ) → (Fin B → Fin D → ℤ) → ℝ)
    (E : (Fin D → ℤ) → ℝ) (temp : ℤ → ℝ) (ref : ℝ) [NeZero B] (logEvery L : ℕ) (ratio : ℝ) (zero : Fin D → ℤ)
    (x : Fin B → Fin D → ℤ) (z : Fin D → ℤ) : ℝ :=
  ∑ v ∈ (open Classical in (paths (prodStates B S) L).filter fun v =>
    (coChain (replay v E temp ref) logEvery L ratio zero () x 0).best 0 < E z / ref), trajProb KB L x v

section Report

variable [NeZero B] {S : Finset (Fin D → ℤ)} {E : (Fin D → ℤ) → ℝ} {K : ℕ → (Fin D → ℤ) → (Fin D → ℤ) → ℝ}
  {KB : ℕ → (Fin B → Fin D → ℤ) → (Fin B → Fin D → ℤ) → ℝ}

/-- If no logged step holds an optimum, the experiment reports less than the optimum. -/
theorem replay_worse {L : ℕ} (v : Fin L → Fin B → Fin D → ℤ) (temp : ℤ → ℝ) {ref : ℝ} (href : 0 < ref)
    {logEvery : ℕ} {ratio : ℝ} (h0 : 0 ≤ ratio) (h1 : ratio ≤ 1) (zero : Fin D → ℤ) (x : Fin B → Fin D → ℤ)
    {z : Fin D → ℤ} (hz : z ∈ optima S E) (hfl : -1000000000 < E z / ref) (hv : v ∈ paths (prodStates B S) L)
    (hmiss : ∀ i : Fin L, logEvery ∣ (i : ℕ) + 1 → ∀ b, v i b ∉ optima S E) :
    (coChain (replay v E temp ref) logEvery L ratio zero () x 0).best 0 < E z / ref := by
  have hg := (co_best (replay v E temp ref) logEvery L ratio h0 h1 zero () x 0 0 href).1
  rcases hg with hg | ⟨t, ht1, ht2, hdvd, b, hb⟩
  · rw [hg]; exact hfl
  · obtain ⟨i, rfl⟩ : ∃ i, t = i + 1 := ⟨t - 1, by omega⟩
    have hi : i < L := by omega
    have e : (coChain (replay v E temp ref) logEvery L ratio zero () x 0).best 0 = E (v ⟨i, hi⟩ b) / ref := by
      rw [hb]
      show E (((replay v E temp ref).traj () x 0 (i + 1)).1 b) / ref = _
      rw [(replay_traj v E temp ref x i).2 hi]
    rw [e]
    refine div_lt_div_of_pos_right ?_ href
    have hmem := mem_prodStates.1 (Fintype.mem_piFinset.1 hv ⟨i, hi⟩) b
    have hno := hmiss ⟨i, hi⟩ (by exact_mod_cast hdvd) b
    by_contra hge
    push Not at hge
    exact hno (mem_optima.2 ⟨hmem, fun y hy => ((mem_optima.1 hz).2 y hy).trans hge⟩)

/-- The probability to report less than some sample is at most that to show no optimum at a logged step. -/
theorem shortfall_le_miss (hK : ∀ t, Stochastic S (K t)) (hKB : ∀ t x y, KB t x y = prodKernel (K t) x y) {ref : ℝ}
    (href : 0 < ref) (logEvery L : ℕ) {ratio : ℝ} (h0 : 0 ≤ ratio) (h1 : ratio ≤ 1) (temp : ℤ → ℝ)
    (zero : Fin D → ℤ) {z : Fin D → ℤ} (hz : z ∈ S) {x : Fin B → Fin D → ℤ} (hx : x ∈ prodStates B S) :
    shortfall S KB E temp ref logEvery L ratio zero x z ≤
      ∏ b, missAt S K (fun t => logEvery ∣ t + 1) (optima S E) L 0 (x b) := by
  classical
  have eKB : KB = fun t => prodKernel (K t) := by funext t x y; exact hKB t x y
  subst eKB
  have hst : ∀ t, Stochastic (prodStates B S) (prodKernel (B := B) (K t)) := fun t => prodKernel_stochastic (hK t)
  rw [← missAt_batch, ← missAt_traj]
  simp only [zero_add]
  refine Finset.sum_le_sum_of_subset_of_nonneg ?_ fun v hv _ =>
    trajProb_nonneg L hst x hx v (mem_filter.1 hv).1
  intro v hv
  rw [@mem_filter] at hv
  rw [mem_filter]
  refine ⟨hv.1, fun i hi hmem => ?_⟩
  obtain ⟨b, hb⟩ := (mem_filter.1 hmem).2
  exact replay_best v temp href h0 h1 zero x hz hv.2 i hi b hb

/-- **C116 (what is reported).** A run reports less than the optimum exactly when none of its logged steps shows an
optimum in any chain.  The floor `-10⁹` that the best ratio starts from has to be below the optimum. -/
theorem shortfall_eq_miss (hKB : ∀ t x y, KB t x y = prodKernel (K t) x y) {ref : ℝ}
    (href : 0 < ref) (logEvery L : ℕ) {ratio : ℝ} (h0 : 0 ≤ ratio) (h1 : ratio ≤ 1) (temp : ℤ → ℝ)
    (zero : Fin D → ℤ) {z : Fin D → ℤ} (hz : z ∈ optima S E) (hfl : -1000000000 < E z / ref)
    (x : Fin B → Fin D → ℤ) :
    shortfall S KB E temp ref logEvery L ratio zero x z =
      ∏ b, missAt S K (fun t => logEvery ∣ t + 1) (optima S E) L 0 (x b) := by
  classical
  have eKB : KB = fun t => prodKernel (K t) := by funext t x y; exact hKB t x y
  subst eKB
  rw [← missAt_batch, ← missAt_traj]
  simp only [zero_add]
  refine Finset.sum_congr ?_ fun _ _ => rfl
  ext v
  rw [@mem_filter, mem_filter]
  refine and_congr_right fun hv => ⟨fun h i hi hmem => ?_, fun h => ?_⟩
  · obtain ⟨b, hb⟩ := (mem_filter.1 hmem).2
    exact replay_best v temp href h0 h1 zero x (mem_optima.1 hz).1 h i hi b hb
  · exact replay_worse v temp href h0 h1 zero x hz hfl hv fun i hi b hb =>
      h i hi (mem_filter.2 ⟨Fintype.mem_piFinset.1 hv i, b, hb⟩)

/-- The bound for runs that can reach an optimum at a logged step within `M` steps from everywhere. -/
theorem shortfall_le (hK : ∀ t, Stochastic S (K t)) (hKB : ∀ t x y, KB t x y = prodKernel (K t) x y)
    {R : ℕ → (Fin D → ℤ) → (Fin D → ℤ) → Prop} {a : ℝ} (ha : 0 ≤ a) (ha1 : a ≤ 1)
    {L : ℕ} (hR : ∀ t < L, ∀ x ∈ S, ∀ z ∈ S, R t x z → a ≤ K t x z) {M logEvery : ℕ}
    (hreach : ∀ t, ∀ x ∈ S, Reaches S R (fun t => logEvery ∣ t + 1) (optima S E) M t x) {ref : ℝ}
    (href : 0 < ref) {ratio : ℝ} (h0 : 0 ≤ ratio) (h1 : ratio ≤ 1) (temp : ℤ → ℝ)
    (zero : Fin D → ℤ) {z : Fin D → ℤ} (hz : z ∈ S) {x : Fin B → Fin D → ℤ} (hx : x ∈ prodStates B S) :
    shortfall S KB E temp ref logEvery L ratio zero x z ≤ ((1 - a ^ M) ^ (L / M)) ^ B := by
  refine (shortfall_le_miss hK hKB href logEvery L h0 h1 temp zero hz hx).trans ?_
  calc ∏ b, missAt S K (fun t => logEvery ∣ t + 1) (optima S E) L 0 (x b) ≤
        ∏ _b : Fin B, (1 - a ^ M) ^ (L / M) :=
      Finset.prod_le_prod (fun b _ => missAt_nonneg hK L 0 _ (mem_prodStates.1 hx b)) fun b _ =>
        missAt_le hK ha ha1 hR hreach (L / M) L (Nat.div_mul_le_self L M) 0 (zero_add L).le _ (mem_prodStates.1 hx b)
    _ = _ := by rw [Finset.prod_const, Finset.card_univ, Fintype.card_fin]

theorem exists_optimum {z : Fin D → ℤ} (hz : z ∈ S) : ∃ y ∈ S, y ∈ optima S E := by
  obtain ⟨y, hy, hmax⟩ := Finset.exists_max_image S E ⟨z, hz⟩
  exact ⟨y, hy, mem_optima.2 ⟨hy, hmax⟩⟩

end Report

/-! ## Gibbs and block Gibbs -/

/-- **C116 (Gibbs).** Whatever the schedule of temperatures above `Tm` and the log interval, the probability that a run
of `L` steps of `B` chains reports less than the optimum shrinks geometrically in `L` and in `B`. -/
theorem gibbs_reports [NeZero B] (obj pen : (Fin D → ℤ) → ℝ) (temp : ℕ → ℝ) {C : ℕ} (hC : 0 < C) {r Tm : ℝ}
    (hr : LocalRange (validStates C D) (fun x => obj x - pen x) 1 r) (hTm : 0 < Tm) (L : ℕ) (hlow : ∀ t < L, Tm ≤ temp (t + 1))
    {ref : ℝ} (href : 0 < ref) {logEvery : ℕ} (he : 0 < logEvery) {ratio : ℝ} (h0 : 0 ≤ ratio) (h1 : ratio ≤ 1)
    (zero : Fin D → ℤ) {z : Fin D → ℤ} (hz : z ∈ validStates C D) {x : Fin B → Fin D → ℤ}
    (hx : x ∈ prodStates B (validStates C D)) :
    shortfall (validStates C D) (gibbsAnnealBatch obj pen temp C) (fun x => obj x - pen x) (fun t => temp t.toNat) ref
        logEvery L ratio zero x z ≤
      ((1 - (Real.exp (-(r / Tm)) / C) ^ (D + logEvery)) ^ (L / (D + logEvery))) ^ B := by
  have hr0 : 0 ≤ r := by have := hr z hz z hz (by simp); linarith
  have hC1 : (1 : ℝ) ≤ C := by exact_mod_cast hC
  obtain ⟨y, hy, hopt⟩ := exists_optimum (E := fun x => obj x - pen x) hz
  refine shortfall_le (K := gibbsAnneal obj pen temp C) (fun t => gibbs_stochastic _ hC _)
    (fun t x y => gibbs_batch _ C _ x y)
    (R := fun t x z => ∀ j : Fin D, j ∉ {j : Fin D | (j : ℕ) = ((gibbsUpdate C D)^[t] gibbsInit).index} → z j = x j)
    (by positivity) ?_ (fun t htL x hx w hw h => ?_) (fun t x hx => ?_) href h0 h1 _ zero hz hx
  · rw [div_le_one (by linarith)]
    exact (Real.exp_le_one_iff.2 (neg_nonpos.2 (by positivity))).trans hC1
  · unfold gibbsAnneal
    rw [annealEnergy_div]
    exact gibbsKernel_ge hC hr hTm (hlow t htL) _ hx hw fun j hj => h j hj
  · exact reaches_touch mix_valid (fun t => {j : Fin D | (j : ℕ) = ((gibbsUpdate C D)^[t] gibbsInit).index}) he
      (fun t j => by
        obtain ⟨t', ⟨a1, a2, a3⟩, -⟩ := gibbs_sweep (C := C) t j
        exact ⟨t' - t, by omega, by rw [Set.mem_ofPred_eq, Nat.add_sub_cancel' a1, a3]⟩) hy hopt t hx

/-- **C116 (block Gibbs).** The same for every block size. -/
theorem blockGibbs_reports [NeZero B] (obj pen : (Fin D → ℤ) → ℝ) (temp : ℕ → ℝ) {C b : ℕ} (hC : 0 < C) (hb : 0 < b)
    {r Tm : ℝ} (hr : LocalRange (validStates C D) (fun x => obj x - pen x) b r) (hTm : 0 < Tm)
    (L : ℕ) (hlow : ∀ t < L, Tm ≤ temp (t + 1)) {ref : ℝ} (href : 0 < ref) {logEvery : ℕ} (he : 0 < logEvery) {ratio : ℝ}
    (h0 : 0 ≤ ratio) (h1 : ratio ≤ 1) (zero : Fin D → ℤ) {z : Fin D → ℤ} (hz : z ∈ validStates C D)
    {x : Fin B → Fin D → ℤ} (hx : x ∈ prodStates B (validStates C D)) :
    let M := D / Nat.gcd D b + logEvery
    shortfall (validStates C D) (blockGibbsAnnealBatch obj pen temp C b) (fun x => obj x - pen x)
        (fun t => temp t.toNat) ref logEvery L ratio zero x z ≤
      ((1 - (Real.exp (-(r / Tm)) / (C : ℝ) ^ b) ^ M) ^ (L / M)) ^ B := by
  intro M
  have hr0 : 0 ≤ r := by have := hr z hz z hz (by simp); linarith
  have hC1 : (1 : ℝ) ≤ (C : ℝ) ^ b := one_le_pow₀ (by exact_mod_cast hC)
  obtain ⟨y, hy, hopt⟩ := exists_optimum (E := fun x => obj x - pen x) hz
  refine shortfall_le (K := blockGibbsAnneal obj pen temp C b) (fun t => blockGibbs_stochastic _ hC _)
    (fun t x y => blockGibbs_batch _ C b _ x y)
    (R := fun t x z => ∀ j : Fin D,
      j ∉ {j : Fin D | covers ((blockGibbsUpdate C D b)^[t] blockInit).index b j} → z j = x j)
    (by positivity) ?_ (fun t htL x hx w hw h => ?_) (fun t x hx => ?_) href h0 h1 _ zero hz hx
  · rw [div_le_one (by linarith)]
    exact (Real.exp_le_one_iff.2 (neg_nonpos.2 (by positivity))).trans hC1
  · unfold blockGibbsAnneal
    rw [annealEnergy_div]
    exact blockGibbsKernel_ge hC hr hTm (hlow t htL) _ hx hw fun j hj => h j hj
  · exact reaches_touch mix_valid
      (fun t => {j : Fin D | covers ((blockGibbsUpdate C D b)^[t] blockInit).index b j}) he
      (fun t j => by
        obtain ⟨t', a1, a2, a3⟩ := block_covers_window hb j t
        exact ⟨t' - t, by omega, by rw [Set.mem_ofPred_eq, Nat.add_sub_cancel' a1, block_start]; exact a3⟩)
      hy hopt t hx

/-! ## GWG -/

/-- **C116 (GWG, two or more draws).** With at least two draws per step the log interval plays no role. -/
theorem gwg_reports [NeZero B] (hD : 2 ≤ D) {k : ℕ} (hk : 2 ≤ k) {name : String} {h : ℝ → ℝ}
    (hh : ∀ v, applyWeightLog name v = .ok (h v)) (obj pen : (Fin D → ℤ) → ℝ) {g : (Fin D → ℤ) → Fin D → ℝ}
    (temp : ℕ → ℝ) (s : ℕ → LBState) {R G Tm tiny : ℝ} (ht : 0 ≤ tiny)
    (hR : ∀ x ∈ validStates 2 D, ∀ y ∈ validStates 2 D, (obj x - pen x) - (obj y - pen y) ≤ R)
    (hG : ∀ x ∈ validStates 2 D, ∀ j, |g x j| ≤ G) (hTm : 0 < Tm) (L : ℕ) (hlow : ∀ t < L, Tm ≤ temp (t + 1))
    (hδ : tiny ≤ (Real.exp (-(2 * G / Tm)) / D) ^ k * Real.exp (-(R / Tm))) {ref : ℝ} (href : 0 < ref) {logEvery : ℕ}
    (he : 0 < logEvery) {ratio : ℝ} (h0 : 0 ≤ ratio) (h1 : ratio ≤ 1) (zero : Fin D → ℤ) {z : Fin D → ℤ}
    (hz : z ∈ validStates 2 D) {x : Fin B → Fin D → ℤ} (hx : x ∈ prodStates B (validStates 2 D)) :
    let δ := (Real.exp (-(2 * G / Tm)) / D) ^ k * Real.exp (-(R / Tm)) - tiny
    let M := D + 2 + logEvery
    shortfall (validStates 2 D) (gwgAnnealBatch k tiny h obj pen g temp s) (fun x => obj x - pen x)
        (fun t => temp t.toNat) ref logEvery L ratio zero x z ≤ ((1 - δ ^ M) ^ (L / M)) ^ B := by
  intro δ M
  have hD0 : 0 < D := by omega
  have hp1 : Real.exp (-(2 * G / Tm)) / D ≤ 1 := gwgFloor_le_one hD0 (gwgGrad_nonneg hD0 hG) hTm
  have hR0 : 0 ≤ R := by have := hR z hz z hz; linarith
  have hr1 : Real.exp (-(R / Tm)) ≤ 1 := Real.exp_le_one_iff.2 (by have := div_nonneg hR0 hTm.le; linarith)
  have hp0 : 0 ≤ Real.exp (-(2 * G / Tm)) / D := by positivity
  have ha1 : (Real.exp (-(2 * G / Tm)) / D) ^ k ≤ 1 := pow_le_one₀ hp0 hp1
  obtain ⟨y, hy, hopt⟩ := exists_optimum (E := fun x => obj x - pen x) hz
  have hwalk : ∀ x ∈ validStates 2 D, ∀ n, D + 2 ≤ n → Walk (validStates 2 D) nearMove n x y := by
    intro x hx n hn
    induction n, hn using Nat.le_induction with
    | base => exact nearMove_walk hD x hx y hy
    | succ n hn _ =>
      -- go to a neighbour of `y` and then to `y`
      let w : Fin D → ℤ := fun j => if j = ⟨0, hD0⟩ then 1 - y j else y j
      have hy' := mem_validStates_two.1 hy
      have hw : w ∈ validStates 2 D := by
        rw [mem_validStates_two]; intro j; dsimp only [w]
        have := hy' j
        split_ifs <;> omega
      have hwy : nearMove w y := Or.inl ⟨⟨0, hD0⟩, by
        have := hy' ⟨0, hD0⟩
        simp only [w, if_true]; omega, fun j hj => by simp [w, hj]⟩
      have hyw : nearMove y w := Or.inl ⟨⟨0, hD0⟩, by
        have := hy' ⟨0, hD0⟩
        simp only [w, if_true]; omega, fun j hj => by simp [w, hj]⟩
      have e1 := nearMove_walk hD x hx y hy
      have e2 := nearMove_walk hD x hx w hw
      have hback : Walk (validStates 2 D) nearMove 2 y y := (Walk.single hy hyw).snoc hw hwy
      have hpow : ∀ i, Walk (validStates 2 D) nearMove (2 * i) y y := by
        intro i
        induction i with
        | zero => rfl
        | succ i ih => exact ih.trans hback
      rcases Nat.even_or_odd (n + 1 - (D + 2)) with ⟨i, hi⟩ | ⟨i, hi⟩
      · have := e1.trans (hpow i)
        rwa [show D + 2 + 2 * i = n + 1 by omega] at this
      · have := (e2.snoc hw hwy).trans (hpow i)
        rwa [show D + 2 + 1 + 2 * i = n + 1 by omega] at this
  refine shortfall_le (K := gwgAnneal k tiny h obj pen g temp s) (fun t => gwg_stochastic hD0 k ht h _ _ none (s t))
    (fun t x y => gwgBinary_batch k tiny h _ _ none (s t) x y) (R := fun _ => nearMove) (by linarith) ?_
    (fun t htL a ha b hb hab => ?_) (fun t x hx => reaches_walks he hy hopt hwalk t hx) href h0 h1 _ zero hz hx
  · have := mul_le_one₀ ha1 (Real.exp_pos (-(R / Tm))).le hr1
    linarith
  · obtain ⟨idx, hi, -⟩ := gwg_reaches hk h (annealGrad g temp t) none ha hb hab
    refine gwgAnneal_move_ge hD0 hh s ht hR hG hTm (hlow t htL) ha hb ?_ idx hi
    rintro rfl
    rcases hab with ⟨i, h, -⟩ | ⟨i, i', -, h, -⟩ <;> exact h rfl

/-- **C116 (GWG, one draw).** With one draw per step and an odd log interval. -/
theorem gwg_reports_one [NeZero B] (hD : 0 < D) {name : String} {h : ℝ → ℝ}
    (hh : ∀ v, applyWeightLog name v = .ok (h v)) (obj pen : (Fin D → ℤ) → ℝ) {g : (Fin D → ℤ) → Fin D → ℝ}
    (temp : ℕ → ℝ) (s : ℕ → LBState) {R G Tm tiny : ℝ} (ht : 0 ≤ tiny)
    (hR : ∀ x ∈ validStates 2 D, ∀ y ∈ validStates 2 D, (obj x - pen x) - (obj y - pen y) ≤ R)
    (hG : ∀ x ∈ validStates 2 D, ∀ j, |g x j| ≤ G) (hTm : 0 < Tm) (L : ℕ) (hlow : ∀ t < L, Tm ≤ temp (t + 1))
    (hδ : tiny ≤ Real.exp (-(2 * G / Tm)) / D * Real.exp (-(R / Tm))) {ref : ℝ} (href : 0 < ref) {logEvery : ℕ}
    (he : Odd logEvery) {ratio : ℝ} (h0 : 0 ≤ ratio) (h1 : ratio ≤ 1) (zero : Fin D → ℤ) {z : Fin D → ℤ}
    (hz : z ∈ validStates 2 D) {x : Fin B → Fin D → ℤ} (hx : x ∈ prodStates B (validStates 2 D)) :
    let δ := Real.exp (-(2 * G / Tm)) / D * Real.exp (-(R / Tm)) - tiny
    let M := D + 2 * logEvery
    shortfall (validStates 2 D) (gwgAnnealBatch 1 tiny h obj pen g temp s) (fun x => obj x - pen x)
        (fun t => temp t.toNat) ref logEvery L ratio zero x z ≤ ((1 - δ ^ M) ^ (L / M)) ^ B := by
  intro δ M
  have hp1 : Real.exp (-(2 * G / Tm)) / D ≤ 1 := gwgFloor_le_one hD (gwgGrad_nonneg hD hG) hTm
  have hR0 : 0 ≤ R := by have := hR z hz z hz; linarith
  have hr1 : Real.exp (-(R / Tm)) ≤ 1 := Real.exp_le_one_iff.2 (by have := div_nonneg hR0 hTm.le; linarith)
  obtain ⟨y, hy, hopt⟩ := exists_optimum (E := fun x => obj x - pen x) hz
  have hy' := mem_validStates_two.1 hy
  let w : Fin D → ℤ := fun j => if j = ⟨0, hD⟩ then 1 - y j else y j
  have hw : w ∈ validStates 2 D := by
    rw [mem_validStates_two]; intro j; dsimp only [w]
    have := hy' j
    split_ifs <;> omega
  have hne : w ⟨0, hD⟩ ≠ y ⟨0, hD⟩ := by
    have := hy' ⟨0, hD⟩
    simp only [w, if_true]; omega
  refine shortfall_le (K := gwgAnneal 1 tiny h obj pen g temp s) (fun t => gwg_stochastic hD 1 ht h _ _ none (s t))
    (fun t x y => gwgBinary_batch 1 tiny h _ _ none (s t) x y)
    (R := fun _ a b => ∃ i, b i ≠ a i ∧ ∀ j, j ≠ i → b j = a j) (by linarith) ?_
    ?_ (fun t x hx => reaches_odd (m := D) he hy hopt ?_ (fun x hx => ⟨_, ?_,
      Walk.sites mix_valid (fun _ _ _ _ h => h) x hx y hy⟩) t hx) href h0 h1 _ zero hz hx
  · have := mul_le_one₀ hp1 (Real.exp_pos (-(R / Tm))).le hr1
    linarith
  · rintro t htL a ha b hb ⟨i, hi, hj⟩
    have := gwgAnneal_move_ge (k := 1) hD hh s ht hR hG hTm (hlow t htL) ha hb (fun e => hi (by rw [e])) _
      (gwgPropose_site one_pos ha hb hi hj)
    rwa [pow_one] at this
  · exact (Walk.single hy ⟨⟨0, hD⟩, hne, fun j hj => if_neg hj⟩).snoc hw
      ⟨⟨0, hD⟩, hne.symm, fun j hj => (if_neg hj).symm⟩
  · exact (Finset.card_filter_le _ _).trans (by simp)

/-! ## Path auxiliary -/

/-- **C116 (path auxiliary).** With an odd number of flips below the number of sites and an odd log interval. -/
theorem pafs_reports {k : ℕ} (hodd : Odd k) (hk : k < D ∨ D = 1 ∧ k = 1) :
    ∃ M₀, ∀ {B : ℕ} [NeZero B] {name : String} {h : ℝ → ℝ}, (∀ v, applyWeightLog name v = .ok (h v)) →
      ∀ (obj pen : (Fin D → ℤ) → ℝ) (g : (Fin D → ℤ) → Fin D → ℝ) (temp : ℕ → ℝ) (s : ℕ → LBState) (L : ℕ)
      {R G Tm tiny : ℝ}, 0 ≤ tiny →
      (∀ x ∈ validStates 2 D, ∀ y ∈ validStates 2 D, (obj x - pen x) - (obj y - pen y) ≤ R) →
      (∀ x ∈ validStates 2 D, ∀ j, |g x j| ≤ G) → 0 < Tm → (∀ t < L, Tm ≤ temp (t + 1)) →
      tiny ≤ (Real.exp (-(2 * (G / Tm))) / D) ^ k * Real.exp (-(R / Tm)) → ∀ {ref : ℝ}, 0 < ref → ∀ {logEvery : ℕ},
      Odd logEvery → ∀ {ratio : ℝ}, 0 ≤ ratio → ratio ≤ 1 → ∀ (zero : Fin D → ℤ), ∀ z ∈ validStates 2 D,
      ∀ x ∈ prodStates B (validStates 2 D),
        let δ := (Real.exp (-(2 * (G / Tm))) / D) ^ k * Real.exp (-(R / Tm)) - tiny
        let M := M₀ + 2 * logEvery
        shortfall (validStates 2 D) (pafsAnnealBatch k tiny h obj pen g temp s) (fun x => obj x - pen x)
          (fun t => temp t.toNat) ref logEvery L ratio zero x z ≤ ((1 - δ ^ M) ^ (L / M)) ^ B := by
  obtain ⟨M, hM, hw⟩ := exists_walk_bound (flipSet_reach_all hodd hk)
  have hD : 0 < D := by omega
  have hkD : k ≤ D := by omega
  have hD' : (1 : ℝ) ≤ D := by exact_mod_cast hD
  refine ⟨M, fun {B _ name h} hh obj pen g temp s L {R G Tm tiny} ht hR hG hTm hlow hδ {ref} href {logEvery} he {ratio}
    h0 h1 zero z hz x hx => ?_⟩
  have hG0 : 0 ≤ G / Tm := div_nonneg ((abs_nonneg _).trans (hG z hz ⟨0, hD⟩)) hTm.le
  have hR0 : 0 ≤ R / Tm := div_nonneg (by have := hR z hz z hz; linarith) hTm.le
  have hp1 : Real.exp (-(2 * (G / Tm))) / D ≤ 1 := by
    rw [div_le_one (by linarith)]
    exact (Real.exp_le_one_iff.2 (by linarith)).trans hD'
  have hr1 : Real.exp (-(R / Tm)) ≤ 1 := Real.exp_le_one_iff.2 (by linarith)
  have hp0 : 0 ≤ Real.exp (-(2 * (G / Tm))) / D := by positivity
  have ha1 : (Real.exp (-(2 * (G / Tm))) / D) ^ k ≤ 1 := pow_le_one₀ hp0 hp1
  obtain ⟨y, hy, hopt⟩ := exists_optimum (E := fun x => obj x - pen x) hz
  obtain ⟨A, -, hA⟩ := Finset.exists_subset_card_eq (s := (univ : Finset (Fin D))) (n := k) (by simpa using hkD)
  have hyA := flipSet_valid hy A
  refine shortfall_le (K := pafsAnneal k tiny h obj pen g temp s) (fun t => pafs_stochastic hD hkD ht h _ _ none (s t))
    (fun t x y => pafsBinary_batch k tiny h _ _ none (s t) x y)
    (R := fun _ a b => ∃ A : Finset (Fin D), A.card = k ∧ b = flipSet a A) (by linarith) ?_
    ?_ (fun t x hx => reaches_odd he hy hopt ?_ (fun x hx => hw x hx y hy) t hx) href h0 h1 _ zero hz hx
  · have := mul_le_one₀ ha1 (Real.exp_pos (-(R / Tm))).le hr1
    linarith
  · rintro t htL a ha b hb ⟨A, hA, rfl⟩
    exact pafs_flip_ge hodd.pos hkD hh (s t) ht (annealScore_le hG hTm (hlow t htL))
      (annealEnergy_diff hR hTm (hlow t htL)) ha hA
  · refine (Walk.single hy ⟨A, hA, rfl⟩).snoc hyA ⟨A, hA, funext fun j => ?_⟩
    unfold flipSet
    split_ifs <;> omega

/-- **C116 is false of the code (path auxiliary, even number of flips).** If every optimum is at an odd distance from the
start of every chain, no run reports it, whatever the schedule, the log interval, the number of chains and the length of
the run. -/
theorem pafs_even_reports [NeZero B] {k : ℕ} (hD : 0 < D) (hk : k ≤ D) (hev : Even k) {tiny : ℝ} (ht : 0 ≤ tiny)
    (h : ℝ → ℝ) (obj pen : (Fin D → ℤ) → ℝ) (g : (Fin D → ℤ) → Fin D → ℝ) (temp : ℕ → ℝ) (s : ℕ → LBState) {ref : ℝ}
    (href : 0 < ref) (logEvery L : ℕ) {ratio : ℝ} (h0 : 0 ≤ ratio) (h1 : ratio ≤ 1) (zero : Fin D → ℤ)
    {x : Fin B → Fin D → ℤ} (hx : x ∈ prodStates B (validStates 2 D))
    (hodd : ∀ b, ∀ y ∈ optima (validStates 2 D) fun x => obj x - pen x, Odd (univ.filter fun j => y j ≠ x b j).card)
    {z : Fin D → ℤ} (hz : z ∈ optima (validStates 2 D) fun x => obj x - pen x)
    (hfl : -1000000000 < (obj z - pen z) / ref) :
    shortfall (validStates 2 D) (pafsAnnealBatch k tiny h obj pen g temp s) (fun x => obj x - pen x)
      (fun t => temp t.toNat) ref logEvery L ratio zero x z = 1 := by
  rw [shortfall_eq_miss (K := pafsAnneal k tiny h obj pen g temp s) (KB := pafsAnnealBatch k tiny h obj pen g temp s)
    (fun t x y => pafsBinary_batch k tiny h _ _ none (s t) x y) href logEvery L h0 h1 _ zero hz hfl]
  refine Finset.prod_eq_one fun b _ => ?_
  have hxb := mem_prodStates.1 hx b
  refine missAt_eq_one (fun t => pafs_stochastic hD hk ht h _ _ none (s t))
    (T := fun w => signProd w = signProd (x b)) (fun t w hw hTw u _ hTu => ?_) (fun y hy => ?_) L 0 _ hxb rfl
  · rw [pafsBinaryKernel_eq k ht h _ _ _ _ hw]
    exact pafs_even_step hev ht h _ _ _ hw fun e => hTu (e.trans hTw)
  · rw [signProd_diff hxb (mem_optima.1 hy).1, (hodd b y hy).neg_one_pow]
    intro e
    have h0 : signProd (x b) = 0 := by linarith
    have h1 := signProd_abs hxb
    rw [h0, abs_zero] at h1
    exact zero_ne_one h1

/-- **C116 is false of the code (Max-Cut).** On a star with an odd number of leaves, every run of any number of chains
from the all-zero samples with an even number of flips reports less than the maximum cut. -/
theorem pafs_star_reports [NeZero B] {N k : ℕ} (hN : Odd N) (hk : k ≤ N + 1) (hev : Even k) {tiny : ℝ} (ht : 0 ≤ tiny)
    (h : ℝ → ℝ) (g : (Fin (N + 1) → ℤ) → Fin (N + 1) → ℝ) (temp : ℕ → ℝ) (s : ℕ → LBState) {ref : ℝ} (href : 0 < ref)
    (logEvery L : ℕ) {ratio : ℝ} (h0 : 0 ≤ ratio) (h1 : ratio ≤ 1) (zero : Fin (N + 1) → ℤ) {z : Fin (N + 1) → ℤ}
    (hz : z ∈ optima (validStates 2 (N + 1))
      fun x => maxcutObjective (starGraph N) (fun j => (x j : ℝ)) - noPenalty x) :
    shortfall (B := B) (validStates 2 (N + 1))
      (pafsAnnealBatch k tiny h (fun x => maxcutObjective (starGraph N) fun j => (x j : ℝ)) noPenalty g temp s)
      (fun x => maxcutObjective (starGraph N) (fun j => (x j : ℝ)) - noPenalty x) (fun t => temp t.toNat) ref logEvery L
      ratio zero (fun _ _ => 0) z = 1 := by
  have hzero : (fun _ => 0 : Fin (N + 1) → ℤ) ∈ validStates 2 (N + 1) := mem_validStates_two.2 fun _ => Or.inl rfl
  refine pafs_even_reports (Nat.succ_pos N) hk hev ht h _ noPenalty g temp s href logEvery L h0 h1 zero
    (mem_prodStates.2 fun _ => hzero) (fun _ y hy => star_optimum_odd hN ?_) hz ?_
  · simpa only [noPenalty, sub_zero] using hy
  · have h2 := (mem_optima.1 hz).2 _ hzero
    have h3 : maxcutObjective (starGraph N) (fun _ => ((0 : ℤ) : ℝ)) = 0 := by simp [maxcutObjective, starGraph]
    rw [h3] at h2
    simp only [noPenalty, sub_zero] at h2 ⊢
    have := div_nonneg h2 href.le
    linarith

/-! ## DMALA and DLMC -/

/-- Runs every step of which is close to a fresh draw from the Boltzmann law. -/
theorem nearFresh_reports [NeZero B] {C : ℕ} {E : (Fin D → ℤ) → ℝ} {T : ℕ → ℝ} (hT : ∀ t, 0 < T t)
    {K : ℕ → (Fin D → ℤ) → (Fin D → ℤ) → ℝ} {KB : ℕ → (Fin B → Fin D → ℤ) → (Fin B → Fin D → ℤ) → ℝ} {a ρ : ℝ}
    (ha0 : 0 ≤ a) (ha1 : a ≤ 1) (hρ : 0 ≤ ρ) (hKB : ∀ t x y, KB t x y = prodKernel (K t) x y)
    (h : ∀ t, NearFresh (validStates C D) (boltz E (T (t + 1))) (K t) a ρ) {ref : ℝ} (href : 0 < ref) (logEvery L : ℕ)
    {ratio : ℝ} (h0 : 0 ≤ ratio) (h1 : ratio ≤ 1) (temp : ℤ → ℝ) (zero : Fin D → ℤ) {z : Fin D → ℤ}
    (hz : z ∈ validStates C D) {x : Fin B → Fin D → ℤ} (hx : x ∈ prodStates B (validStates C D)) :
    shortfall (validStates C D) KB E temp ref logEvery L ratio zero x z ≤
      ((1 - (a / (C : ℝ) ^ D - ρ)) ^ B) ^ (L / logEvery) := by
  refine (nearFresh_best hKB h href logEvery L h0 h1 temp zero hz hx).trans ?_
  rw [← prod_logged]
  have hz' : (validStates C D).Nonempty := ⟨z, hz⟩
  have key : ∀ t, a / (C : ℝ) ^ D ≤ a * mass (target (validStates C D) (boltz E (T t))) (optima (validStates C D) E) := by
    intro t
    have := mass_optima_ge_uniform hz' E (hT t)
    rw [card_validStates] at this
    calc a / (C : ℝ) ^ D = a * (1 / (C : ℝ) ^ D) := by ring
      _ ≤ _ := mul_le_mul_of_nonneg_left this ha0
  have hle : ∀ t, a * mass (target (validStates C D) (boltz E (T t))) (optima (validStates C D) E) ≤ 1 := by
    intro t
    have h1 : mass (target (validStates C D) (boltz E (T t))) (optima (validStates C D) E) ≤ 1 := by
      rw [← sum_target (sum_boltz_pos hz' E (T t))]
      exact Finset.sum_le_sum_of_subset_of_nonneg optima_subset fun y hy _ =>
        target_nonneg (fun w _ => (boltz_pos _ _ w).le) y hy
    exact (mul_le_mul_of_nonneg_left h1 ha0).trans (by linarith)
  refine Finset.prod_le_prod (fun i _ => ?_) fun i _ => ?_
  · split_ifs
    · exact pow_nonneg (by linarith [hle (i + 1)]) _
    · exact zero_le_one
  · split_ifs
    · exact pow_le_pow_left₀ (by linarith [hle (i + 1)]) (by linarith [key (i + 1)]) _
    · exact le_rfl

/-- **C116 (DMALA).** With a fixed step size and flip probabilities in `[a, 1 - a]`. -/
theorem dmala_reports [NeZero B] (c : DCfg) {tiny eps : ℝ} (ht : 0 ≤ tiny) (he : 0 ≤ eps) (h : ℝ → ℝ)
    (obj pen : (Fin D → ℤ) → ℝ) (g : (Fin D → ℤ) → Fin D → ℝ) (temp : ℕ → ℝ) (hT : ∀ t, 0 < temp t) (s : ℕ → DState)
    (hfix : ∀ t, c.adaptive = false ∨ c.coOpt = false ∧ (s t).steps ≠ 0) {τ : ℕ → (Fin D → ℤ) → ℝ}
    (hτ : ∀ t x, dmalaTau1 c h (annealGrad g temp t) (s t) x = some (τ t x)) {a : ℝ} (ha : 0 < a) (ha2 : a ≤ 1 / 2)
    (hlo : ∀ t, ∀ x ∈ validStates 2 D, ∀ j, a ≤ dmalaFlipProb (τ t x) (h (deltaBinary (annealGrad g temp t) x j)) ∧
        dmalaFlipProb (τ t x) (h (deltaBinary (annealGrad g temp t) x j)) ≤ 1 - a) {ref : ℝ} (href : 0 < ref)
    (logEvery L : ℕ) {ratio : ℝ} (h0 : 0 ≤ ratio) (h1 : ratio ≤ 1) (zero : Fin D → ℤ) {z : Fin D → ℤ}
    (hz : z ∈ validStates 2 D) {x : Fin B → Fin D → ℤ} (hx : x ∈ prodStates B (validStates 2 D)) :
    shortfall (validStates 2 D) (dmalaAnnealBatch c tiny eps h obj pen g temp s) (fun x => obj x - pen x)
        (fun t => temp t.toNat) ref logEvery L ratio zero x z ≤
      ((1 - (a ^ D / (2 : ℕ) ^ D - (2 * tiny + 2 * D * eps))) ^ B) ^ (L / logEvery) :=
  nearFresh_reports (K := dmalaAnneal c tiny eps h obj pen g temp s) hT (by positivity)
    (pow_le_one₀ ha.le (by linarith)) (by positivity)
    (fun t x y => dmalaBinary_batch c tiny eps h _ _ (s t) (hfix t) x y)
    (fun t => dmala_nearFresh c ht he h obj pen g temp s t ((hfix t).imp id fun e => Or.inr e.2) (hτ t) ha ha2 (hlo t))
    href logEvery L h0 h1 _ zero hz hx

/-- **C116 (DLMC).** The same. -/
theorem dlmc_reports [NeZero B] (c : DCfg) (hsol : c.solver ∈ knownSolvers) {tiny eps : ℝ} (ht : 0 ≤ tiny)
    (he : 0 ≤ eps) (h : ℝ → ℝ) (obj pen : (Fin D → ℤ) → ℝ) (g : (Fin D → ℤ) → Fin D → ℝ) (temp : ℕ → ℝ)
    (hT : ∀ t, 0 < temp t) (s : ℕ → DState) (hs : ∀ t, (s t).steps ≠ 0) (hfix : c.adaptive = false ∨ c.coOpt = false)
    {τ : ℕ → (Fin D → ℤ) → ℝ}
    (hτ : ∀ t x, dlmcTau1 c h (annealGrad g temp t) (s t) x = some (τ t x)) {a : ℝ} (ha : 0 < a) (ha2 : a ≤ 1 / 2)
    (hlo : ∀ t, ∀ x ∈ validStates 2 D, ∀ j, a ≤ dlmcProb c h (annealGrad g temp t) (τ t x) x j ∧
        dlmcProb c h (annealGrad g temp t) (τ t x) x j ≤ 1 - a) {ref : ℝ} (href : 0 < ref)
    (logEvery L : ℕ) {ratio : ℝ} (h0 : 0 ≤ ratio) (h1 : ratio ≤ 1) (zero : Fin D → ℤ) {z : Fin D → ℤ}
    (hz : z ∈ validStates 2 D) {x : Fin B → Fin D → ℤ} (hx : x ∈ prodStates B (validStates 2 D)) :
    shortfall (validStates 2 D) (dlmcAnnealBatch c tiny eps h obj pen g temp s) (fun x => obj x - pen x)
        (fun t => temp t.toNat) ref logEvery L ratio zero x z ≤
      ((1 - (a ^ D / (2 : ℕ) ^ D - (2 * tiny + 2 * D * eps))) ^ B) ^ (L / logEvery) :=
  nearFresh_reports (K := dlmcAnneal c tiny eps h obj pen g temp s) hT (by positivity)
    (pow_le_one₀ ha.le (by linarith)) (by positivity)
    (fun t x y => dlmcBinary_batch c tiny eps h _ _ (s t) (hs t) hfix x y)
    (fun t => dlmc_nearFresh c hsol ht he h obj pen g temp s t (Or.inr (hs t)) (hτ t) ha ha2 (hlo t)) href
    logEvery L h0 h1 _ zero hz hx

/-! ## In the limit -/

/-- A geometric bound with a rate below one tends to zero. -/
theorem geom_tendsto [NeZero B] {a : ℝ} (ha : 0 < a) (ha1 : a ≤ 1) {M : ℕ} (hM : 0 < M) :
    Tendsto (fun L => ((1 - a ^ M) ^ (L / M)) ^ B) atTop (nhds 0) := by
  have h1 : 0 ≤ 1 - a ^ M := by linarith [pow_le_one₀ (n := M) ha.le ha1]
  have h2 : Tendsto (fun L => (1 - a ^ M) ^ (L / M)) atTop (nhds 0) :=
    (tendsto_pow_atTop_nhds_zero_of_lt_one h1 (by linarith [pow_pos ha M])).comp (Nat.tendsto_div_const_atTop hM.ne')
  have := h2.pow B
  rwa [zero_pow (NeZero.ne B)] at this

theorem shortfall_nonneg [NeZero B] {S : Finset (Fin D → ℤ)} {E : (Fin D → ℤ) → ℝ}
    {KB : ℕ → (Fin B → Fin D → ℤ) → (Fin B → Fin D → ℤ) → ℝ} (hst : ∀ t, Stochastic (prodStates B S) (KB t))
    (temp : ℤ → ℝ) (ref : ℝ) (logEvery L : ℕ) (ratio : ℝ) (zero z : Fin D → ℤ) {x : Fin B → Fin D → ℤ}
    (hx : x ∈ prodStates B S) : 0 ≤ shortfall S KB E temp ref logEvery L ratio zero x z := by
  refine Finset.sum_nonneg fun v hv => trajProb_nonneg L hst x hx v ?_
  rw [@mem_filter] at hv
  exact hv.1

/-- **C116 (Gibbs, in the limit).** With temperatures bounded away from zero a run that is long enough reports the
optimum with a probability as close to one as desired. -/
theorem gibbs_reports_tendsto [NeZero B] (obj pen : (Fin D → ℤ) → ℝ) (temp : ℕ → ℝ) {C : ℕ} (hC : 0 < C) {Tm : ℝ}
    (hTm : 0 < Tm) (hlow : ∀ t, Tm ≤ temp (t + 1)) {ref : ℝ} (href : 0 < ref) {logEvery : ℕ} (he : 0 < logEvery)
    {ratio : ℝ} (h0 : 0 ≤ ratio) (h1 : ratio ≤ 1) (zero : Fin D → ℤ) {z : Fin D → ℤ} (hz : z ∈ validStates C D)
    {x : Fin B → Fin D → ℤ} (hx : x ∈ prodStates B (validStates C D)) :
    Tendsto (fun L => shortfall (validStates C D) (gibbsAnnealBatch obj pen temp C) (fun x => obj x - pen x)
        (fun t => temp t.toNat) ref logEvery L ratio zero x z) atTop (nhds 0) := by
  have hst : ∀ t, Stochastic (prodStates B (validStates C D)) (gibbsAnnealBatch obj pen temp C t) := fun t => by
    have e : gibbsAnnealBatch (B := B) obj pen temp C t = prodKernel (gibbsAnneal obj pen temp C t) := by
      funext x y; exact gibbs_batch _ C _ x y
    rw [e]; exact prodKernel_stochastic (gibbs_stochastic _ hC _)
  obtain ⟨r, hr⟩ : ∃ r, LocalRange (validStates C D) (fun x => obj x - pen x) 1 r := by
    obtain ⟨p, -, hp⟩ := Finset.exists_max_image ((validStates C D) ×ˢ (validStates C D))
      (fun p => (obj p.1 - pen p.1) - (obj p.2 - pen p.2)) ⟨(z, z), mem_product.2 ⟨hz, hz⟩⟩
    exact ⟨_, fun x hx y hy _ => hp (x, y) (mem_product.2 ⟨hx, hy⟩)⟩
  have hr0 : 0 ≤ r := by have := hr z hz z hz (by simp); linarith
  have hC1 : (1 : ℝ) ≤ C := by exact_mod_cast hC
  have ha1 : Real.exp (-(r / Tm)) / C ≤ 1 := by
    rw [div_le_one (by linarith)]
    exact (Real.exp_le_one_iff.2 (neg_nonpos.2 (by positivity))).trans hC1
  exact tendsto_of_tendsto_of_tendsto_of_le_of_le tendsto_const_nhds
    (geom_tendsto (by positivity) ha1 (by omega : 0 < D + logEvery))
    (fun L => shortfall_nonneg hst _ ref logEvery L ratio zero z hx)
    fun L => gibbs_reports obj pen temp hC hr hTm L (fun t _ => hlow t) href he h0 h1 zero hz hx

/-! ## Examples -/

/-- Gibbs on a star with three leaves, two chains, logged every 100 steps: a long run reports the maximum cut. -/
example : Tendsto (fun L => shortfall (B := 2) (validStates 2 4)
      (gibbsAnnealBatch (fun x => maxcutObjective (starGraph 3) fun j => (x j : ℝ)) noPenalty (fun _ => 1) 2)
      (fun x => maxcutObjective (starGraph 3) (fun j => (x j : ℝ)) - noPenalty x) (fun _ => 1) 3 100 L 0 (fun _ => 0)
      (fun _ _ => 0) (fun j => if j = 0 then 1 else 0)) atTop (nhds 0) :=
  gibbs_reports_tendsto (B := 2) (C := 2) (D := 4) (Tm := 1) (ref := 3) (logEvery := 100) (ratio := 0)
    (fun x => maxcutObjective (starGraph 3) fun j => (x j : ℝ)) noPenalty (fun _ => 1) (by norm_num) one_pos
    (fun _ => le_rfl) (by norm_num) (by norm_num) le_rfl zero_le_one _ (mem_validStates_two.2 fun j => by split_ifs <;> simp)
    (mem_prodStates.2 fun _ => mem_validStates_two.2 fun _ => Or.inl rfl)

/-- GWG with two draws on two sites, any log interval. -/
example (s : ℕ → LBState) {logEvery : ℕ} (he : 0 < logEvery) (L : ℕ) {x : Fin 3 → Fin 2 → ℤ}
    (hx : x ∈ prodStates 3 (validStates 2 2)) :
    shortfall (B := 3) (validStates 2 2)
      (gwgAnnealBatch 2 0 (· / 2) (fun x => (x 0 : ℝ) + x 1) (fun _ => 0) (fun _ _ => 1) (fun _ => 1) s)
      (fun x => (x 0 : ℝ) + x 1 - 0) (fun _ => 1) 2 logEvery L 0 (fun _ => 0) x (fun _ => 1) ≤
    ((1 - ((Real.exp (-(2 * 1 / 1)) / (2 : ℕ)) ^ 2 * Real.exp (-(2 / 1)) - 0) ^ (2 + 2 + logEvery)) ^
      (L / (2 + 2 + logEvery))) ^ 3 := by
  refine gwg_reports (D := 2) (k := 2) le_rfl le_rfl (name := "SQRT") (h := (· / 2)) (fun v => by simp [applyWeightLog])
    (fun x => (x 0 : ℝ) + x 1) (fun _ => 0) (g := fun _ _ => 1) (fun _ => 1) s (R := 2) (G := 1) (Tm := 1) (tiny := 0)
    le_rfl ?_ (by simp) one_pos L (fun _ _ => le_rfl) (by positivity) (by norm_num) he le_rfl zero_le_one _
    (mem_validStates_two.2 fun _ => Or.inr rfl) hx
  intro x hx y hy
  have hx' := mem_validStates_two.1 hx
  have hy' := mem_validStates_two.1 hy
  rcases hx' 0 with a | a <;> rcases hx' 1 with b | b <;> rcases hy' 0 with c | c <;> rcases hy' 1 with d | d <;>
    rw [a, b, c, d] <;> norm_num

/-- The path auxiliary sampler with two flips on the same star reports less in every run. -/
example (s : ℕ → LBState) (L : ℕ) {z : Fin 4 → ℤ} (hz : z ∈ optima (validStates 2 4)
      fun x => maxcutObjective (starGraph 3) (fun j => (x j : ℝ)) - noPenalty x) :
    shortfall (B := 2) (validStates 2 4)
      (pafsAnnealBatch 2 mhTiny (· / 2) (fun x => maxcutObjective (starGraph 3) fun j => (x j : ℝ)) noPenalty
        (fun _ _ => 0) (fun _ => 1) s)
      (fun x => maxcutObjective (starGraph 3) (fun j => (x j : ℝ)) - noPenalty x) (fun _ => 1) 3 100 L 0 (fun _ => 0)
      (fun _ _ => 0) z = 1 :=
  pafs_star_reports (N := 3) (by decide) (by norm_num) (by decide) (by norm_num [mhTiny]) _ _ (fun _ => 1) s
    (by norm_num) 100 L le_rfl zero_le_one _ hz

end Discs
