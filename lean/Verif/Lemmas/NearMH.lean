import Verif.Lemmas.Grid
import Verif.Lemmas.Doeblin

/-! # Helper lemmas: Metropolis–Hastings steps whose acceptance test is computed with an error -/

namespace Discs.Spec

open Finset

variable {X Ω : Type*}

/-- The step moves or stays; it moves whenever the exact test passes with `η` to spare, and stays whenever the exact test
fails by more than `η`.  Only noise in `[0, 1)` is drawn. -/
structure NearMHStep (S : Finset X) (tiny η : ℝ) (move : X → Ω → X) (lacc : X → Ω → ℝ) (stepf : X → Ω → ℝ → X) : Prop where
  choice : ∀ x ∈ S, ∀ ω u, stepf x ω u = move x ω ∨ stepf x ω u = x
  accept : ∀ x ∈ S, ∀ ω u, 0 ≤ u → u < 1 → bernoulliLogp tiny u (lacc x ω - η) → stepf x ω u = move x ω
  reject : ∀ x ∈ S, ∀ ω u, 0 ≤ u → u < 1 → ¬ bernoulliLogp tiny u (lacc x ω + η) → stepf x ω u = x

/-- The factor `e ^ η` costs at most `e ^ η - 1` of acceptance probability. -/
theorem min_exp_add_le (l : ℝ) {η : ℝ} (hη : 0 ≤ η) :
    min 1 (Real.exp (l + η)) ≤ min 1 (Real.exp l) + (Real.exp η - 1) := by
  have h1 : 1 ≤ Real.exp η := Real.one_le_exp hη
  have h0 := Real.exp_pos l
  rw [Real.exp_add]
  rcases le_total 1 (Real.exp l) with h | h
  · rw [min_eq_left h]
    linarith [min_le_left 1 (Real.exp l * Real.exp η)]
  · rw [min_eq_right h]
    refine (min_le_right _ _).trans ?_
    nlinarith

theorem min_exp_sub_ge (l : ℝ) {η : ℝ} (hη : 0 ≤ η) :
    min 1 (Real.exp l) - (Real.exp η - 1) ≤ min 1 (Real.exp (l - η)) := by
  have := min_exp_add_le (l - η) hη
  rw [sub_add_cancel] at this
  linarith

open Classical in
/-- The fraction of the noise values on which the step moves. -/
noncomputable def nearAccept (M : ℕ) (move : X → Ω → X) (lacc : X → Ω → ℝ) (stepf : X → Ω → ℝ → X) (x : X) (ω : Ω) : ℝ :=
  if move x ω = x then acceptProb 0 (lacc x ω)
  else (((range M).filter fun k : ℕ => stepf x ω ((k : ℝ) / M) = move x ω).card : ℝ) / M

theorem grid_mem {M k : ℕ} (hk : k < M) : 0 ≤ (k : ℝ) / M ∧ (k : ℝ) / M < 1 := by
  have hM : (0 : ℝ) < M := by exact_mod_cast (by omega : 0 < M)
  refine ⟨by positivity, ?_⟩
  rw [div_lt_one hM]
  exact_mod_cast hk

section

variable {S : Finset X} {tiny η : ℝ} {move : X → Ω → X} {lacc : X → Ω → ℝ} {stepf : X → Ω → ℝ → X} {M : ℕ}

theorem nearAccept_close (hM : 0 < M) (h0 : 0 < tiny) (hη : 0 ≤ η) (h : NearMHStep S tiny η move lacc stepf) {x : X}
    (hx : x ∈ S) (ω : Ω) :
    |nearAccept M move lacc stepf x ω - acceptProb 0 (lacc x ω)| ≤ (Real.exp η - 1) + tiny + 1 / M := by
  classical
  have hM' : (0 : ℝ) < M := by exact_mod_cast hM
  have he : 1 ≤ Real.exp η := Real.one_le_exp hη
  have hp : (0 : ℝ) < 1 / M := by positivity
  unfold nearAccept
  split_ifs with hmx
  · rw [sub_self, abs_zero]; linarith
  have hlow : acceptGrid M tiny (lacc x ω - η) ≤
      (((range M).filter fun k : ℕ => stepf x ω ((k : ℝ) / M) = move x ω).card : ℝ) / M := by
    rw [← card_accept hM h0]
    gcongr with k hk
    intro hb
    have hg := grid_mem (mem_range.1 hk)
    exact h.accept x hx ω _ hg.1 hg.2 hb
  have hhigh : (((range M).filter fun k : ℕ => stepf x ω ((k : ℝ) / M) = move x ω).card : ℝ) / M ≤
      acceptGrid M tiny (lacc x ω + η) := by
    rw [← card_accept hM h0]
    gcongr with k hk
    intro hb
    have hg := grid_mem (mem_range.1 hk)
    by_contra hc
    exact hmx (hb.symm.trans (h.reject x hx ω _ hg.1 hg.2 hc))
  have c1 := acceptGrid_close hM tiny (lacc x ω - η)
  have c2 := acceptGrid_close hM tiny (lacc x ω + η)
  have d1 := abs_le.1 (acceptProb_close h0.le (lacc x ω - η))
  have d2 := abs_le.1 (acceptProb_close h0.le (lacc x ω + η))
  have e1 := min_exp_add_le (lacc x ω) hη
  have e2 := min_exp_sub_ge (lacc x ω) hη
  rw [acceptProb_zero] at d1 d2 ⊢
  have u2 : acceptProb tiny (lacc x ω + η) ≤ min 1 (Real.exp (lacc x ω + η)) := by
    unfold acceptProb
    exact max_le (le_min zero_le_one (Real.exp_pos _).le) (min_le_min le_rfl (by linarith))
  rw [abs_le]
  constructor <;> linarith

theorem nearAccept_mem (hM : 0 < M) (x : X) (ω : Ω) :
    0 ≤ nearAccept M move lacc stepf x ω ∧ nearAccept M move lacc stepf x ω ≤ 1 := by
  classical
  have hM' : (0 : ℝ) < M := by exact_mod_cast hM
  unfold nearAccept
  split_ifs
  · exact ⟨acceptProb_nonneg _ _, acceptProb_le_one _ _⟩
  · refine ⟨by positivity, ?_⟩
    rw [div_le_one hM']
    have := card_filter_le (range M) fun k : ℕ => stepf x ω ((k : ℝ) / M) = move x ω
    rw [card_range] at this
    exact_mod_cast this

theorem NearMHStep.lawG_eq [Fintype Ω] [DecidableEq X] (hM : 0 < M) (h : NearMHStep S tiny η move lacc stepf)
    (q : X → Ω → ℝ) : ∀ x ∈ S, ∀ y, lawG M (q x) (stepf x) y = mhKernel q move (nearAccept M move lacc stepf) x y := by
  classical
  intro x hx y
  have hM' : (M : ℝ) ≠ 0 := by exact_mod_cast hM.ne'
  unfold lawG mhKernel
  refine Finset.sum_congr rfl fun ω _ => ?_
  congr 1
  unfold nearAccept
  by_cases hmx : move x ω = x
  · have hall : ∀ u, stepf x ω u = x := fun u => (h.choice x hx ω u).elim (fun e => e.trans hmx) id
    simp only [hmx, if_true, hall]
    by_cases hxy : x = y
    · simp [hxy, hM']
    · simp [hxy]
  simp only [hmx, if_false]
  have hrest : ((range M).filter fun k : ℕ => stepf x ω ((k : ℝ) / M) = x).card =
      M - ((range M).filter fun k : ℕ => stepf x ω ((k : ℝ) / M) = move x ω).card := by
    have hs := Finset.card_filter_add_card_filter_not (s := range M) (fun k : ℕ => stepf x ω ((k : ℝ) / M) = move x ω)
    have he : ((range M).filter fun k : ℕ => ¬ stepf x ω ((k : ℝ) / M) = move x ω) =
        (range M).filter fun k : ℕ => stepf x ω ((k : ℝ) / M) = x := by
      refine Finset.filter_congr fun k _ => ⟨fun hn => (h.choice x hx ω _).resolve_left hn, fun he hn => hmx (hn.symm.trans he)⟩
    rw [he, card_range] at hs
    omega
  have hle : ((range M).filter fun k : ℕ => stepf x ω ((k : ℝ) / M) = move x ω).card ≤ M := by
    have := card_filter_le (range M) fun k : ℕ => stepf x ω ((k : ℝ) / M) = move x ω
    rwa [card_range] at this
  by_cases h1 : move x ω = y
  · subst h1
    simp [Ne.symm hmx]
  · by_cases h2 : x = y
    · subst h2
      simp only [h1, if_false, if_true, zero_add]
      have e : ((((range M).filter fun k : ℕ => stepf x ω ((k : ℝ) / M) = x).card : ℕ) : ℝ) +
          (((range M).filter fun k : ℕ => stepf x ω ((k : ℝ) / M) = move x ω).card : ℕ) = (M : ℕ) := by
        rw [hrest, Nat.cast_sub hle, sub_add_cancel]
      rw [eq_sub_iff_add_eq, ← add_div, div_eq_one_iff_eq hM']
      convert e
    · simp only [h1, h2, if_false, add_zero]
      refine div_eq_zero_iff.2 (Or.inl ?_)
      rw [Nat.cast_eq_zero, Finset.card_eq_zero]
      refine Finset.eq_empty_of_forall_notMem fun k hk => ?_
      have he : stepf x ω ((k : ℝ) / M) = y := (@Finset.mem_filter _ _ (_) _ _).1 hk |>.2
      exact (h.choice x hx ω ((k : ℝ) / M)).elim
        (fun e => h1 (e.symm.trans he)) (fun e => h2 (e.symm.trans he))

end

/-- Metropolis–Hastings kernels with close acceptance probabilities have close rows. -/
theorem mhKernel_accept_close [Fintype Ω] [DecidableEq X] {S : Finset X} {q : X → Ω → ℝ} {move : X → Ω → X} {A A' : X → Ω → ℝ}
    {d : ℝ} (x : X) (hd : ∀ ω, |A x ω - A' x ω| ≤ d) (hq : IsProb (q x)) :
    ∑ y ∈ S, |mhKernel q move A x y - mhKernel q move A' x y| ≤ 2 * d := by
  calc ∑ y ∈ S, |mhKernel q move A x y - mhKernel q move A' x y|
      ≤ ∑ y ∈ S, ∑ ω, q x ω * ((if move x ω = y then d else 0) + (if x = y then d else 0)) := by
        refine Finset.sum_le_sum fun y _ => ?_
        unfold mhKernel
        rw [← Finset.sum_sub_distrib]
        refine (Finset.abs_sum_le_sum_abs _ _).trans (Finset.sum_le_sum fun ω _ => ?_)
        rw [← mul_sub, abs_mul, abs_of_nonneg (hq.1 ω)]
        refine mul_le_mul_of_nonneg_left ?_ (hq.1 ω)
        have hc := abs_le.1 (hd ω)
        rw [abs_le]
        split_ifs <;> constructor <;> linarith
    _ = ∑ ω, q x ω * ((∑ y ∈ S, if move x ω = y then d else 0) + ∑ y ∈ S, if x = y then d else 0) := by
        rw [Finset.sum_comm]
        refine Finset.sum_congr rfl fun ω _ => ?_
        rw [← Finset.mul_sum, Finset.sum_add_distrib]
    _ ≤ ∑ ω, q x ω * (2 * d) := by
        refine Finset.sum_le_sum fun ω _ => mul_le_mul_of_nonneg_left ?_ (hq.1 ω)
        have := (abs_nonneg _).trans (hd ω)
        rw [Finset.sum_ite_eq, Finset.sum_ite_eq]
        split_ifs <;> linarith
    _ = 2 * d := by rw [← Finset.sum_mul, hq.2, one_mul]

section

variable [Fintype Ω] [DecidableEq X] {S : Finset X} {π : X → ℝ} {q : X → Ω → ℝ} {move : X → Ω → X} {rev : X → Ω → Ω}
  {lacc : X → Ω → ℝ}

theorem PathMH.near_stochastic (H : PathMH S π q move rev lacc) {tiny η : ℝ} {stepf : X → Ω → ℝ → X}
    (hs : NearMHStep S tiny η move lacc stepf) {M : ℕ} (hM : 0 < M) :
    Stochastic S fun x y => lawG M (q x) (stepf x) y :=
  Stochastic.congr (hs.lawG_eq hM q) (stochastic_mhKernel H.prob H.closed (fun x ω => (nearAccept_mem hM x ω).1)
    fun x ω => (nearAccept_mem hM x ω).2)

/-- One step computed with an error, against the ideal step. -/
theorem PathMH.near_close (H : PathMH S π q move rev lacc) {tiny η : ℝ} (h0 : 0 < tiny) (hη : 0 ≤ η)
    {stepf : X → Ω → ℝ → X} (hs : NearMHStep S tiny η move lacc stepf) {M : ℕ} (hM : 0 < M) :
    ∀ x ∈ S, ∑ y ∈ S, |lawG M (q x) (stepf x) y - mhKernel q move (fun x ω => acceptProb 0 (lacc x ω)) x y| ≤
      2 * ((Real.exp η - 1) + tiny + 1 / M) := by
  intro x hx
  rw [Finset.sum_congr rfl fun y _ => by rw [hs.lawG_eq hM q x hx y]]
  exact mhKernel_accept_close x (fun ω => nearAccept_close hM h0 hη hs hx ω) (H.prob x hx)

end

/-- A run of steps computed with errors moves the target by at most the sum of the errors. -/
theorem PathMH.near_run [DecidableEq X] {S : Finset X} {π : X → ℝ} {Ω : ℕ → Type*} [∀ t, Fintype (Ω t)]
    {q : ∀ t, X → Ω t → ℝ} {move : ∀ t, X → Ω t → X} {rev : ∀ t, X → Ω t → Ω t} {lacc : ∀ t, X → Ω t → ℝ}
    (H : ∀ t, PathMH S π (q t) (move t) (rev t) (lacc t)) {tiny η : ℝ} (h0 : 0 < tiny) (hη : 0 ≤ η)
    {stepf : ∀ t, X → Ω t → ℝ → X} (hs : ∀ t, NearMHStep S tiny η (move t) (lacc t) (stepf t)) {M : ℕ} (hM : 0 < M) (n : ℕ) :
    NearlyInvariant S π (iterate S (fun t x y => lawG M (q t x) (stepf t x) y) n)
      (n * (2 * ((Real.exp η - 1) + tiny + 1 / M))) := by
  refine nearlyInvariant_iterate (fun t => (H t).near_stochastic (hs t) hM) (fun t => ?_) n
  have hinv : ∀ y ∈ S, ∑ x ∈ S, π x * mhKernel (q t) (move t) (fun x ω => acceptProb 0 (lacc t x ω)) x y = π y := by
    have hst : Stochastic S (mhKernel (q t) (move t) (fun x ω => acceptProb 0 (lacc t x ω))) :=
      stochastic_mhKernel (H t).prob (H t).closed (fun _ _ => acceptProb_nonneg _ _) (fun _ _ => acceptProb_le_one _ _)
    intro y hy
    rw [Finset.sum_congr rfl fun x hx => (H t).reversible x hx y hy, ← Finset.mul_sum, hst.2.1 y hy, mul_one]
  have hc := (H t).near_close h0 hη (hs t) hM
  unfold NearlyInvariant
  calc ∑ y ∈ S, |∑ x ∈ S, π x * lawG M (q t x) (stepf t x) y - π y|
      = ∑ y ∈ S, |∑ x ∈ S, π x * (lawG M (q t x) (stepf t x) y -
          mhKernel (q t) (move t) (fun x ω => acceptProb 0 (lacc t x ω)) x y)| := by
        refine Finset.sum_congr rfl fun y hy => ?_
        rw [← hinv y hy, ← Finset.sum_sub_distrib]
        simp only [mul_sub]
    _ ≤ ∑ y ∈ S, ∑ x ∈ S, π x * |lawG M (q t x) (stepf t x) y -
          mhKernel (q t) (move t) (fun x ω => acceptProb 0 (lacc t x ω)) x y| := by
        refine Finset.sum_le_sum fun y _ => (Finset.abs_sum_le_sum_abs _ _).trans (Finset.sum_le_sum fun x hx => ?_)
        rw [abs_mul, abs_of_pos ((H t).pi_pos x hx)]
    _ = ∑ x ∈ S, π x * ∑ y ∈ S, |lawG M (q t x) (stepf t x) y -
          mhKernel (q t) (move t) (fun x ω => acceptProb 0 (lacc t x ω)) x y| := by
        rw [Finset.sum_comm]
        exact Finset.sum_congr rfl fun x _ => (Finset.mul_sum _ _ _).symm
    _ ≤ ∑ x ∈ S, π x * (2 * ((Real.exp η - 1) + tiny + 1 / M)) :=
        Finset.sum_le_sum fun x hx => mul_le_mul_of_nonneg_left (hc x hx) ((H t).pi_pos x hx).le
    _ = 2 * ((Real.exp η - 1) + tiny + 1 / M) * ∑ x ∈ S, π x := by rw [← Finset.sum_mul, mul_comm]

/-- Steps computed with errors that do not accumulate: a chain that can reach every state in one draw approaches the target
down to a floor. -/
theorem PathMH.near_converges [Fintype Ω] [DecidableEq X] {S : Finset X} {π : X → ℝ} {q : ℕ → X → Ω → ℝ} {move : X → Ω → X}
    {rev : X → Ω → Ω} {lacc : X → Ω → ℝ} (H : ∀ t, PathMH S π (q t) move rev lacc) {tiny η : ℝ} (h0 : 0 < tiny)
    (hη : 0 ≤ η) {stepf : ℕ → X → Ω → ℝ → X} (hs : ∀ t, NearMHStep S tiny η move lacc (stepf t)) {M : ℕ} (hM : 0 < M)
    {a : ℝ} (ha : 0 < a) (ha1 : a ≤ 1)
    (hreach : ∀ t, ∀ x ∈ S, ∀ y ∈ S, ∃ ω, move x ω = y ∧ a ≤ q t x ω ∧ a ≤ q t y (rev x ω)) :
    ConvergesWithin S π (fun t x y => lawG M (q t x) (stepf t x) y) 1 (1 - a)
      (2 * ((Real.exp η - 1) + tiny + 1 / M) / a) := by
  rcases S.eq_empty_or_nonempty with rfl | hS
  · exact fun x hx => absurd hx (Finset.notMem_empty x)
  have he : 1 ≤ Real.exp η := Real.one_le_exp hη
  have hM' : (0 : ℝ) < M := by exact_mod_cast hM
  have hp : (0 : ℝ) < 1 / M := by positivity
  have hst : ∀ t, Stochastic S (mhKernel (q t) move (fun x ω => acceptProb 0 (lacc x ω))) := fun t =>
    stochastic_mhKernel (H t).prob (H t).closed (fun _ _ => acceptProb_nonneg _ _) (fun _ _ => acceptProb_le_one _ _)
  have h := convergesWithin_of_minor (S := S) (π := π) (m := 1) one_pos (H 0).pi_pos
    (fun t => (H t).near_stochastic (hs t) hM) hst
    (fun t y hy => by
      rw [Finset.sum_congr rfl fun x hx => (H t).reversible x hx y hy, ← Finset.mul_sum, (hst t).2.1 y hy, mul_one])
    (ρ := 2 * ((Real.exp η - 1) + tiny + 1 / M)) (by linarith)
    (fun t => (H t).near_close h0 hη (hs t) hM) ha ha1 (fun _ => target S π)
    (fun _ => sum_target (Finset.sum_pos (H 0).pi_pos hS))
    (fun t x hx y hy => by
      have := (H t).minor ha (hreach t) x hx y hy
      simpa [iterate, comp, hx] using this)
  simpa using h

end Discs.Spec
