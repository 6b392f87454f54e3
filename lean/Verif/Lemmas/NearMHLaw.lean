import Verif.Lemmas.NearMH

/-! # Helper lemmas: steps computed with errors, whose draws also have a slightly wrong law -/

namespace Discs.Spec

open Finset

variable {X Ω : Type*}

/-- The requirements of `NearMHStep`, only for the draws that occur. -/
structure NearMHStepOn (S : Finset X) (q' : X → Ω → ℝ) (tiny η : ℝ) (move : X → Ω → X) (lacc : X → Ω → ℝ)
    (stepf : X → Ω → ℝ → X) : Prop where
  choice : ∀ x ∈ S, ∀ ω u, q' x ω ≠ 0 → stepf x ω u = move x ω ∨ stepf x ω u = x
  accept : ∀ x ∈ S, ∀ ω u, q' x ω ≠ 0 → 0 ≤ u → u < 1 → bernoulliLogp tiny u (lacc x ω - η) → stepf x ω u = move x ω
  reject : ∀ x ∈ S, ∀ ω u, q' x ω ≠ 0 → 0 ≤ u → u < 1 → ¬ bernoulliLogp tiny u (lacc x ω + η) → stepf x ω u = x

/-- What the step does on draws that do not occur is irrelevant. -/
theorem NearMHStepOn.extend [Fintype Ω] {S : Finset X} {q' : X → Ω → ℝ} {tiny η : ℝ} (hη : 0 ≤ η) {move : X → Ω → X}
    {lacc : X → Ω → ℝ} {stepf : X → Ω → ℝ → X} (hs : NearMHStepOn S q' tiny η move lacc stepf) :
    ∃ stepf' : X → Ω → ℝ → X, NearMHStep S tiny η move lacc stepf' ∧
      ∀ M x y, lawG M (q' x) (stepf x) y = lawG M (q' x) (stepf' x) y := by
  classical
  refine ⟨fun x ω u => if q' x ω = 0 then (if bernoulliLogp tiny u (lacc x ω) then move x ω else x) else stepf x ω u,
    ⟨fun x hx ω u => ?_, fun x hx ω u h0 h1 h => ?_, fun x hx ω u h0 h1 h => ?_⟩, fun M x y => ?_⟩
  · by_cases hq : q' x ω = 0
    · rw [if_pos hq]; exact ite_eq_or_eq _ _ _
    · rw [if_neg hq]; exact hs.choice x hx ω u hq
  · by_cases hq : q' x ω = 0
    · rw [if_pos hq, if_pos]
      unfold bernoulliLogp at *
      linarith
    · rw [if_neg hq]; exact hs.accept x hx ω u hq h0 h1 h
  · by_cases hq : q' x ω = 0
    · rw [if_pos hq, if_neg]
      intro h'
      apply h
      unfold bernoulliLogp at *
      linarith
    · rw [if_neg hq]; exact hs.reject x hx ω u hq h0 h1 h
  · unfold lawG
    refine Finset.sum_congr rfl fun ω _ => ?_
    by_cases hq : q' x ω = 0
    · rw [hq, zero_mul, zero_mul]
    · simp only [hq, if_false]

section

variable [Fintype Ω] [DecidableEq X] {S : Finset X} {π : X → ℝ} {q q' : X → Ω → ℝ} {move : X → Ω → X} {rev : X → Ω → Ω}
  {lacc : X → Ω → ℝ}

theorem near_stochastic_law (hq : ∀ x ∈ S, IsProb (q' x)) (hc : ∀ x ∈ S, ∀ ω, q' x ω ≠ 0 → move x ω ∈ S) {tiny η : ℝ}
    {stepf : X → Ω → ℝ → X} (hs : NearMHStep S tiny η move lacc stepf) {M : ℕ} (hM : 0 < M) :
    Stochastic S fun x y => lawG M (q' x) (stepf x) y :=
  Stochastic.congr (hs.lawG_eq hM q') (stochastic_mhKernel hq hc (fun x ω => (nearAccept_mem hM x ω).1)
    fun x ω => (nearAccept_mem hM x ω).2)

/-- One step computed with an error and drawn from `q'` instead of `q`, against the ideal step. -/
theorem PathMH.near_close_law (H : PathMH S π q move rev lacc) {κ : ℝ} (hqq : ∀ x ∈ S, ∑ ω, |q' x ω - q x ω| ≤ κ)
    {tiny η : ℝ} (h0 : 0 < tiny) (hη : 0 ≤ η) {stepf : X → Ω → ℝ → X} (hs : NearMHStep S tiny η move lacc stepf) {M : ℕ}
    (hM : 0 < M) :
    ∀ x ∈ S, ∑ y ∈ S, |lawG M (q' x) (stepf x) y - mhKernel q move (fun x ω => acceptProb 0 (lacc x ω)) x y| ≤
      2 * ((Real.exp η - 1) + tiny + 1 / M) + κ := by
  intro x hx
  have h1 := mhKernel_accept_close (S := S) (q := q) (move := move) (A := nearAccept M move lacc stepf)
    (A' := fun x ω => acceptProb 0 (lacc x ω)) x (fun ω => nearAccept_close hM h0 hη hs hx ω) (H.prob x hx)
  have h2 : ∑ y ∈ S, |mhKernel q' move (nearAccept M move lacc stepf) x y -
      mhKernel q move (nearAccept M move lacc stepf) x y| ≤ κ :=
    (mhKernel_close (fun x ω => (nearAccept_mem hM x ω).1) (fun x ω => (nearAccept_mem hM x ω).2) x).trans (hqq x hx)
  calc ∑ y ∈ S, |lawG M (q' x) (stepf x) y - mhKernel q move (fun x ω => acceptProb 0 (lacc x ω)) x y|
      ≤ ∑ y ∈ S, (|mhKernel q move (nearAccept M move lacc stepf) x y -
            mhKernel q move (fun x ω => acceptProb 0 (lacc x ω)) x y| +
          |mhKernel q' move (nearAccept M move lacc stepf) x y - mhKernel q move (nearAccept M move lacc stepf) x y|) := by
        refine Finset.sum_le_sum fun y _ => ?_
        rw [hs.lawG_eq hM q' x hx y, add_comm]
        exact abs_sub_le _ _ _
    _ ≤ 2 * ((Real.exp η - 1) + tiny + 1 / M) + κ := by rw [Finset.sum_add_distrib]; exact add_le_add h1 h2

/-- The ideal step leaves the target unchanged. -/
theorem PathMH.invariant_ideal (H : PathMH S π q move rev lacc) :
    Invariant S π (mhKernel q move (fun x ω => acceptProb 0 (lacc x ω))) := by
  have hst : Stochastic S (mhKernel q move (fun x ω => acceptProb 0 (lacc x ω))) :=
    stochastic_mhKernel H.prob H.closed (fun _ _ => acceptProb_nonneg _ _) (fun _ _ => acceptProb_le_one _ _)
  intro y hy
  rw [Finset.sum_congr rfl fun x hx => H.reversible x hx y hy, ← Finset.mul_sum, hst.2.1 y hy, mul_one]

theorem PathMH.near_step_law (H : PathMH S π q move rev lacc) {κ : ℝ} (hqq : ∀ x ∈ S, ∑ ω, |q' x ω - q x ω| ≤ κ)
    {tiny η : ℝ} (h0 : 0 < tiny) (hη : 0 ≤ η) {stepf : X → Ω → ℝ → X} (hs : NearMHStep S tiny η move lacc stepf) {M : ℕ}
    (hM : 0 < M) :
    NearlyInvariant S π (fun x y => lawG M (q' x) (stepf x) y) (2 * ((Real.exp η - 1) + tiny + 1 / M) + κ) := by
  have hi : NearlyInvariant S π (mhKernel q move (fun x ω => acceptProb 0 (lacc x ω))) 0 := by
    unfold NearlyInvariant
    rw [zero_mul]
    refine (Finset.sum_eq_zero fun y hy => ?_).le
    rw [H.invariant_ideal y hy, sub_self, abs_zero]
  have := NearlyInvariant.of_close (fun x hx => (H.pi_pos x hx).le) hi (H.near_close_law hqq h0 hη hs hM)
  rwa [zero_add] at this

end

/-- A run of steps computed with errors and drawn from slightly wrong laws. -/
theorem PathMH.near_run_law [DecidableEq X] {S : Finset X} {π : X → ℝ} {Ω : ℕ → Type*} [∀ t, Fintype (Ω t)]
    {q q' : ∀ t, X → Ω t → ℝ} {move : ∀ t, X → Ω t → X} {rev : ∀ t, X → Ω t → Ω t} {lacc : ∀ t, X → Ω t → ℝ}
    (H : ∀ t, PathMH S π (q t) (move t) (rev t) (lacc t)) (hq : ∀ t, ∀ x ∈ S, IsProb (q' t x))
    (hc : ∀ t, ∀ x ∈ S, ∀ ω, q' t x ω ≠ 0 → move t x ω ∈ S) {κ : ℝ} (hqq : ∀ t, ∀ x ∈ S, ∑ ω, |q' t x ω - q t x ω| ≤ κ)
    {tiny η : ℝ} (h0 : 0 < tiny) (hη : 0 ≤ η)
    {stepf : ∀ t, X → Ω t → ℝ → X} (hs : ∀ t, NearMHStepOn S (q' t) tiny η (move t) (lacc t) (stepf t)) {M : ℕ} (hM : 0 < M) (n : ℕ) :
    NearlyInvariant S π (iterate S (fun t x y => lawG M (q' t x) (stepf t x) y) n)
      (n * (2 * ((Real.exp η - 1) + tiny + 1 / M) + κ)) := by
  choose stepf' hs' he using fun t => (hs t).extend hη
  have hK : (fun t x y => lawG M (q' t x) (stepf t x) y) = fun t x y => lawG M (q' t x) (stepf' t x) y := by
    funext t x y; exact he t M x y
  rw [hK]
  exact nearlyInvariant_iterate (fun t => near_stochastic_law (hq t) (hc t) (hs' t) hM)
    (fun t => (H t).near_step_law (hqq t) h0 hη (hs' t) hM) n

/-- The errors of the steps and of the laws of the draws do not accumulate in a chain that can reach every state in one draw. -/
theorem PathMH.near_converges_law [DecidableEq X] {S : Finset X} {π : X → ℝ} {Ω : ℕ → Type*} [∀ t, Fintype (Ω t)]
    {q q' : ∀ t, X → Ω t → ℝ} {move : ∀ t, X → Ω t → X} {rev : ∀ t, X → Ω t → Ω t} {lacc : ∀ t, X → Ω t → ℝ}
    (H : ∀ t, PathMH S π (q t) (move t) (rev t) (lacc t)) (hq : ∀ t, ∀ x ∈ S, IsProb (q' t x))
    (hc : ∀ t, ∀ x ∈ S, ∀ ω, q' t x ω ≠ 0 → move t x ω ∈ S) {κ : ℝ} (hκ : 0 ≤ κ)
    (hqq : ∀ t, ∀ x ∈ S, ∑ ω, |q' t x ω - q t x ω| ≤ κ) {tiny η : ℝ} (h0 : 0 < tiny) (hη : 0 ≤ η)
    {stepf : ∀ t, X → Ω t → ℝ → X} (hs : ∀ t, NearMHStepOn S (q' t) tiny η (move t) (lacc t) (stepf t)) {M : ℕ} (hM : 0 < M)
    {a : ℝ} (ha : 0 < a) (ha1 : a ≤ 1)
    (hreach : ∀ t, ∀ x ∈ S, ∀ y ∈ S, ∃ ω, move t x ω = y ∧ a ≤ q t x ω ∧ a ≤ q t y (rev t x ω)) :
    ConvergesWithin S π (fun t x y => lawG M (q' t x) (stepf t x) y) 1 (1 - a)
      ((2 * ((Real.exp η - 1) + tiny + 1 / M) + κ) / a) := by
  choose stepf' hs' hK' using fun t => (hs t).extend hη
  have hK : (fun t x y => lawG M (q' t x) (stepf t x) y) = fun t x y => lawG M (q' t x) (stepf' t x) y := by
    funext t x y; exact hK' t M x y
  rw [hK]
  rcases S.eq_empty_or_nonempty with rfl | hS
  · exact fun x hx => absurd hx (Finset.notMem_empty x)
  have he : 1 ≤ Real.exp η := Real.one_le_exp hη
  have hM' : (0 : ℝ) < M := by exact_mod_cast hM
  have hp : (0 : ℝ) < 1 / M := by positivity
  have hst : ∀ t, Stochastic S (mhKernel (q t) (move t) (fun x ω => acceptProb 0 (lacc t x ω))) := fun t =>
    stochastic_mhKernel (H t).prob (H t).closed (fun _ _ => acceptProb_nonneg _ _) (fun _ _ => acceptProb_le_one _ _)
  have h := convergesWithin_of_minor (S := S) (π := π) (m := 1) one_pos (H 0).pi_pos
    (fun t => near_stochastic_law (hq t) (hc t) (hs' t) hM) hst (fun t => (H t).invariant_ideal)
    (ρ := 2 * ((Real.exp η - 1) + tiny + 1 / M) + κ) (by linarith)
    (fun t => (H t).near_close_law (hqq t) h0 hη (hs' t) hM) ha ha1 (fun _ => target S π)
    (fun _ => sum_target (Finset.sum_pos (H 0).pi_pos hS))
    (fun t x hx y hy => by
      have := (H t).minor ha (hreach t) x hx y hy
      simpa [iterate, comp, hx] using this)
  simpa using h

end Discs.Spec
