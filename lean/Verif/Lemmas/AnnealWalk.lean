import Verif.Lemmas.Anneal
import Verif.Lemmas.Walks

/-!
# Lemmas on annealed Metropolis–Hastings runs that need several steps to reach every state
-/

namespace Discs.Spec

open Finset

variable {X : Type*}

/-- A pair of states joined by a draw of probability at least `a` in both directions: the ideal step makes the
move with at least `a` times the ratio of the weights. -/
theorem PathMH.minor_pair {Ω : Type*} [Fintype Ω] [DecidableEq X] {S : Finset X} {π : X → ℝ} {q : X → Ω → ℝ}
    {move : X → Ω → X} {rev : X → Ω → Ω} {lacc : X → Ω → ℝ} (H : PathMH S π q move rev lacc) {a r : ℝ}
    (ha : 0 < a) (hr1 : r ≤ 1) {x y : X} (hx : x ∈ S) (hy : y ∈ S) (hr : r * π x ≤ π y)
    (hreach : ∃ ω, move x ω = y ∧ a ≤ q x ω ∧ a ≤ q y (rev x ω)) :
    a * r ≤ mhKernel q move (fun x ω => acceptProb 0 (lacc x ω)) x y := by
  obtain ⟨ω, hm, h1, h2⟩ := hreach
  have hterm : ∀ ω', 0 ≤ q x ω' * ((if move x ω' = y then acceptProb 0 (lacc x ω') else 0) +
      (if x = y then 1 - acceptProb 0 (lacc x ω') else 0)) := by
    intro ω'
    have := acceptProb_nonneg 0 (lacc x ω')
    have := acceptProb_le_one 0 (lacc x ω')
    refine mul_nonneg ((H.prob x hx).1 ω') (add_nonneg ?_ ?_)
    · split_ifs <;> linarith
    · split_ifs <;> linarith
  refine le_trans ?_ (Finset.single_le_sum (f := fun ω' => q x ω' *
    ((if move x ω' = y then acceptProb 0 (lacc x ω') else 0) +
      (if x = y then 1 - acceptProb 0 (lacc x ω') else 0))) (fun ω' _ => hterm ω') (mem_univ ω))
  have hq0 : q x ω ≠ 0 := (lt_of_lt_of_le ha h1).ne'
  have hq := (H.prob x hx).1 ω
  simp only [if_pos hm]
  by_cases hxy : x = y
  · rw [if_pos hxy]
    have e : acceptProb 0 (lacc x ω) + (1 - acceptProb 0 (lacc x ω)) = 1 := by ring
    rw [e, mul_one]
    nlinarith
  · rw [if_neg hxy, add_zero, acceptProb_zero]
    have hra := H.ratio x hx ω hq0 (by rw [hm]; exact Ne.symm hxy)
    rw [hm] at hra
    have hpx := H.pi_pos x hx
    have hpy := H.pi_pos y hy
    rw [mul_min_of_nonneg _ _ hq]
    refine le_min ?_ ?_
    · nlinarith
    · have e : q x ω * Real.exp (lacc x ω) = π y * q y (rev x ω) / π x := by
        rw [hra]; field_simp
      rw [e, le_div_iff₀ hpx]
      calc a * r * π x = a * (r * π x) := by ring
        _ ≤ a * π y := mul_le_mul_of_nonneg_left hr ha.le
        _ ≤ π y * q y (rev x ω) := by nlinarith

/-- A walk whose moves all have probability at least `a`, at each of the first `m` steps. -/
theorem iterate_ge_of_walk' [DecidableEq X] {S : Finset X} {K : ℕ → X → X → ℝ} {R : X → X → Prop} {a : ℝ}
    (ha : 0 ≤ a) (hK : ∀ t, Stochastic S (K t)) {m : ℕ} (hR : ∀ t < m, ∀ x ∈ S, ∀ y ∈ S, R x y → a ≤ K t x y)
    {x : X} (hx : x ∈ S) : ∀ n ≤ m, ∀ y ∈ S, Walk S R n x y → a ^ n ≤ iterate S K n x y := by
  intro n
  induction n with
  | zero =>
    rintro _ y _ rfl
    simp [iterate]
  | succ n ih =>
    rintro hn y hy ⟨z, hz, h1, h2⟩
    have hs := stochastic_iterate hK n
    refine le_trans ?_ (Finset.single_le_sum (f := fun w => iterate S K n x w * K n w y)
      (fun w hw => mul_nonneg (hs.1 x hx w) ((hK n).1 w hw _)) hz)
    rw [pow_succ]
    exact mul_le_mul (ih (by omega) z hz h1) (hR n (by omega) z hz y hy h2) ha (hs.1 x hx _)

/-- The law at the end of an annealed run of Metropolis–Hastings steps which along a relation `Rel`, by walks of
`m` moves, join all states. -/
theorem PathMH.anneal_walk {Ω : ℕ → Type*} [∀ t, Fintype (Ω t)] [DecidableEq X] {S : Finset X} {E : X → ℝ}
    {T : ℕ → ℝ} {q : (t : ℕ) → X → Ω t → ℝ} {move : (t : ℕ) → X → Ω t → X}
    {rev : (t : ℕ) → X → Ω t → Ω t} {lacc : (t : ℕ) → X → Ω t → ℝ}
    (H : ∀ t, PathMH S (boltz E (T (t + 1))) (q t) (move t) (rev t) (lacc t)) {Rel : X → X → Prop} {m : ℕ}
    (hw : ∀ x ∈ S, ∀ y ∈ S, Walk S Rel m x y) {a : ℝ} (ha : 0 < a) (ha1 : a ≤ 1) {R lam Tm : ℝ} (hlam : 0 ≤ lam)
    (hR : ∀ x ∈ S, ∀ y ∈ S, E x - E y ≤ R) (L : ℕ) (hT : ∀ t < L, |1 / T t - 1 / T (t + 1)| ≤ lam)
    (hTm : 0 < Tm) (hlow : ∀ t < L, Tm ≤ T (t + 1))
    (hfl : ∀ t < L, ∀ x ∈ S, ∀ y ∈ S, Rel x y → ∃ ω, move t x ω = y ∧ a ≤ q t x ω ∧ a ≤ q t y (rev t x ω))
    {tiny : ℝ} (ht : 0 ≤ tiny) {stepf : (t : ℕ) → X → Ω t → ℝ → X}
    (h : ∀ t, IsMHStep S tiny (move t) (lacc t) (stepf t)) {K : ℕ → X → X → ℝ}
    (hK : ∀ t, ∀ x ∈ S, ∀ y, K t x y = lawU (q t x) (stepf t x) y) :
    ∀ x ∈ S, l1 S (iterate S K L x) (target S (boltz E (T L))) ≤
      2 * (1 - (a * Real.exp (-(R / Tm))) ^ m) ^ (L / m) +
        m * (2 * (lam * R) + 2 * tiny) / (a * Real.exp (-(R / Tm))) ^ m := by
  intro x₀ hx₀
  have hS : S.Nonempty := ⟨x₀, hx₀⟩
  have hR0 : 0 ≤ R := by have := hR x₀ hx₀ x₀ hx₀; linarith
  have hcard : (1 : ℝ) ≤ S.card := by exact_mod_cast hS.card_pos
  have hA0 : ∀ tiny t x ω, 0 ≤ acceptProb tiny (lacc t x ω) := fun _ _ _ _ => acceptProb_nonneg _ _
  have hA1 : ∀ tiny t x ω, acceptProb tiny (lacc t x ω) ≤ 1 := fun _ _ _ _ => acceptProb_le_one _ _
  let M : ℕ → X → X → ℝ := fun t => mhKernel (q t) (move t) fun x ω => acceptProb 0 (lacc t x ω)
  have hM : ∀ t, Stochastic S (M t) := fun t => stochastic_mhKernel (H t).prob (H t).closed (hA0 0 t) (hA1 0 t)
  have hKeq : ∀ t, ∀ x ∈ S, ∀ y, K t x y =
      mhKernel (q t) (move t) (fun x ω => acceptProb tiny (lacc t x ω)) x y :=
    fun t x hx y => (hK t x hx y).trans ((h t).lawU_eq ht (q t) x hx y)
  have hKs : ∀ t, Stochastic S (K t) := fun t => Stochastic.congr (hKeq t)
    (stochastic_mhKernel (H t).prob (H t).closed (hA0 tiny t) (hA1 tiny t))
  have he1 : Real.exp (-(R / Tm)) ≤ 1 := Real.exp_le_one_iff.2 (neg_nonpos.2 (by positivity))
  set c := a * Real.exp (-(R / Tm)) with hc
  have hc0 : 0 < c := mul_pos ha (Real.exp_pos _)
  have hc1 : c ≤ 1 := mul_le_one₀ ha1 (Real.exp_pos _).le he1
  have hmove : ∀ t < L, ∀ x ∈ S, ∀ y ∈ S, Rel x y → c ≤ M t x y := by
    intro t htL x hx y hy hxy
    refine (H t).minor_pair ha he1 hx hy ?_ (hfl t htL x hx y hy hxy)
    have hT0 : 0 < T (t + 1) := hTm.trans_le (hlow t htL)
    unfold boltz
    rw [← Real.exp_add]
    refine Real.exp_le_exp.2 ?_
    have h1 : (E x - E y) / T (t + 1) ≤ R / Tm :=
      (div_le_div_of_nonneg_right (hR x hx y hy) hT0.le).trans
        (div_le_div_of_nonneg_left hR0 hTm (hlow t htL))
    rw [sub_div] at h1
    linarith
  exact anneal_bound (m := m) (π := fun t => boltz E (T t)) (K := K) (L := M) (ρ := 2 * tiny)
    (δ := c ^ m) (η := 2 * (lam * R)) (fun t y _ => boltz_pos E _ y) hKs hM
    (fun t => invariant_of_reversible (H t).reversible (hM t)) (by positivity) (by positivity)
    (fun t x hx => by
      rw [Finset.sum_congr rfl fun y _ => by rw [hKeq t x hx y]]
      exact mhKernel_tiny_close ht x ((H t).prob x hx))
    (pow_pos hc0 m) (pow_le_one₀ hc0.le hc1) (fun _ _ => 1 / S.card) (fun _ => by
      rw [Finset.sum_const, nsmul_eq_mul, mul_one_div, div_self (by linarith)]) L
    (fun t htm x hx y hy => by
      have h1 := iterate_ge_of_walk' (K := fun i => M (t + i)) hc0.le (fun i => hM _) (m := m)
        (fun i hi => hmove (t + i) (by omega)) hx m le_rfl y hy (hw x hx y hy)
      refine le_trans (mul_le_of_le_one_right (pow_pos hc0 m).le ?_) h1
      rw [div_le_one (by linarith)]; exact hcard)
    (fun t htn => (l1_boltz hS hR _ _).trans
      (mul_le_mul_of_nonneg_left (mul_le_mul_of_nonneg_right (hT t htn) hR0) (by norm_num))) x₀ hx₀

end Discs.Spec
