import Verif.Spec.Forget
import Verif.Lemmas.Forget
import Verif.Lemmas.Grid
import Verif.Lemmas.Irreducible

/-! # Forgetting the start: sufficient and necessary conditions -/

namespace Discs.Spec

open Finset

variable {X Ω : Type*}

theorem Forgets.congr [DecidableEq X] {S : Finset X} {K L : ℕ → X → X → ℝ} (hL : Forgets S L)
    (h : ∀ t, ∀ x ∈ S, ∀ y, K t x y = L t x y) : Forgets S K := by
  obtain ⟨m, hm, c, h0, h1, hc⟩ := hL
  refine ⟨m, hm, c, h0, h1, fun x hx y hy n => ?_⟩
  rw [l1_congr (fun z _ => iterate_congr h n x hx z) fun z _ => iterate_congr h n y hy z]
  exact hc x hx y hy n

/-- Two runs whose laws stay apart. -/
theorem not_forgets_of_l1 [DecidableEq X] {S : Finset X} {K : ℕ → X → X → ℝ} {x y : X} (hx : x ∈ S) (hy : y ∈ S)
    {δ : ℝ} (hδ : 0 < δ) (h : ∀ n, δ ≤ l1 S (iterate S K n x) (iterate S K n y)) : ¬ Forgets S K := by
  rintro ⟨m, hm, c, h0, h1, hc⟩
  have ht := (tendsto_pow_atTop_nhds_zero_of_lt_one h0 h1).const_mul 2
  rw [mul_zero] at ht
  obtain ⟨N, hN⟩ := (ht.eventually (gt_mem_nhds hδ)).exists
  have h2 := hc x hx y hy (m * N)
  rw [Nat.mul_div_cancel_left _ hm] at h2
  exact absurd hN (not_lt.2 ((h _).trans h2))

/-- A test function that every step keeps or negates in expectation is remembered for ever. -/
theorem not_forgets_of_eigen [DecidableEq X] {S : Finset X} {K : ℕ → X → X → ℝ} {φ : X → ℝ} {lam : ℝ} (hlam : |lam| = 1)
    (h : ∀ t, ∀ x ∈ S, ∑ y ∈ S, K t x y * φ y = lam * φ x) (hφ : ∀ y ∈ S, |φ y| ≤ 1) {x y : X} (hx : x ∈ S) (hy : y ∈ S)
    (hne : φ x ≠ φ y) : ¬ Forgets S K := by
  refine not_forgets_of_l1 hx hy (abs_pos.2 (sub_ne_zero.2 hne)) fun n => ?_
  have h3 := expect_le_l1 (S := S) (p := iterate S K n x) (q := iterate S K n y) (φ := φ) hφ
  rwa [expect_eigen h hx, expect_eigen h hy, ← mul_sub, abs_mul, abs_pow, hlam, one_pow, one_mul] at h3

theorem forgets_of_irreducible [DecidableEq X] {S : Finset X} {K : X → X → ℝ} (hK : Stochastic S K)
    (hirr : ∀ x ∈ S, ∀ y ∈ S, ∃ n, Walk S (fun a b => 0 < K a b) n x y) {z : X} (hz : z ∈ S) (hzz : 0 < K z z) :
    Forgets S fun _ => K := by
  obtain ⟨m, hm, hw⟩ := Walk.uniform hirr hz hzz
  obtain ⟨c, h0, h1, hc⟩ := forgets_of_pos (K := fun _ => K) (m := m) one_pos (fun _ => hK) (fun _ => rfl)
    fun _ x hx y hy => iterate_pos_of_walk hK hx hy (hw x hx y hy)
  exact ⟨m, hm, c, h0, h1, hc⟩

/-- A homogeneous run that forgets its start approaches one law, the same for every start, and that law is stationary. -/
theorem Forgets.limit [DecidableEq X] {S : Finset X} (hS : S.Nonempty) {K : X → X → ℝ} (hK : Stochastic S K)
    (h : Forgets S fun _ => K) : ∃ ν : X → ℝ, (∀ x ∈ S, 0 ≤ ν x) ∧ ∑ x ∈ S, ν x = 1 ∧ Invariant S ν K ∧
      ∃ m, 0 < m ∧ ∃ c : ℝ, 0 ≤ c ∧ c < 1 ∧ ∀ x ∈ S, ∀ n, l1 S (iterate S (fun _ => K) n x) ν ≤ 2 * c ^ (n / m) := by
  obtain ⟨m, hm, c, h0, h1, hc⟩ := h
  obtain ⟨ν, hν0, hν1, hinv, hl⟩ := exists_limit_of_forgets (K := fun _ => K) hm one_pos hS (fun _ => hK) (fun _ => rfl) h0 h1 hc
  refine ⟨ν, hν0, hν1, fun y hy => ?_, m, hm, c, h0, h1, fun x hx n => by simpa using hl x hx n⟩
  rw [← hinv y hy]
  exact Finset.sum_congr rfl fun x hx => by simp [iterate, comp, hx]

/-- The law of one step with noise of finite precision. -/
theorem IsMHStep.lawG_eq [Fintype Ω] [DecidableEq X] {S : Finset X} {M : ℕ} (hM : 0 < M) {tiny : ℝ} (h0 : 0 < tiny)
    {move : X → Ω → X} {lacc : X → Ω → ℝ} {stepf : X → Ω → ℝ → X} (h : IsMHStep S tiny move lacc stepf) (q : X → Ω → ℝ) :
    ∀ x ∈ S, ∀ y, lawG M (q x) (stepf x) y = mhKernel q move (fun x ω => acceptGrid M tiny (lacc x ω)) x y := by
  intro x hx y
  rw [lawG_mh hM h0 (q x) (l := lacc x) (y1 := move x) (y0 := fun _ => x)
    (fun ω u => ⟨h.accept x hx ω u, h.reject x hx ω u⟩) y]
  unfold mhKernel
  refine Finset.sum_congr rfl fun ω _ => ?_
  congr

/-- The acceptance test always succeeds. -/
theorem acceptGrid_lt_one {M : ℕ} (hM : 0 < M) {tiny lp : ℝ} :
    acceptGrid M tiny lp < 1 ↔ Real.exp lp ≤ 1 - 1 / M + tiny := by
  have hM' : (0 : ℝ) < M := by exact_mod_cast hM
  unfold acceptGrid
  rw [div_lt_one hM', Nat.cast_lt, min_lt_iff, or_iff_right (lt_irrefl M)]
  rw [show ⌈(M : ℝ) * (Real.exp lp - tiny)⌉₊ < M ↔ ⌈(M : ℝ) * (Real.exp lp - tiny)⌉₊ ≤ M - 1 by omega, Nat.ceil_le,
    Nat.cast_sub hM, Nat.cast_one, mul_comm, ← le_div_iff₀ hM', sub_div, div_self hM'.ne', sub_le_iff_le_add]

theorem acceptGrid_pos {M : ℕ} (hM : 0 < M) {tiny lp : ℝ} (h : tiny < Real.exp lp) : 0 < acceptGrid M tiny lp := by
  have hM' : (0 : ℝ) < M := by exact_mod_cast hM
  unfold acceptGrid
  refine div_pos ?_ hM'
  rw [Nat.cast_pos, lt_min_iff]
  exact ⟨hM, Nat.ceil_pos.2 (mul_pos hM' (by linarith))⟩

/-- A Metropolis–Hastings kernel gives positive probability to what is proposed and sometimes accepted, and to staying if
something is sometimes rejected. -/
theorem mhKernel_pos_of [Fintype Ω] [DecidableEq X] {q : X → Ω → ℝ} {move : X → Ω → X} {A : X → Ω → ℝ}
    (hA0 : ∀ x ω, 0 ≤ A x ω) (hA1 : ∀ x ω, A x ω ≤ 1) {x y : X} (hq : ∀ ω, 0 ≤ q x ω) {ω : Ω} (h : 0 < q x ω)
    (hy : (move x ω = y ∧ 0 < A x ω) ∨ (x = y ∧ A x ω < 1)) : 0 < mhKernel q move A x y := by
  refine lt_of_lt_of_le ?_ (Finset.single_le_sum (f := fun ω' => q x ω' *
    ((if move x ω' = y then A x ω' else 0) + (if x = y then 1 - A x ω' else 0))) (fun ω' _ => ?_) (mem_univ ω))
  · refine mul_pos h ?_
    have := hA0 x ω
    have := hA1 x ω
    rcases hy with ⟨h1, h2⟩ | ⟨h1, h2⟩
    · rw [if_pos h1]; split_ifs <;> linarith
    · rw [if_pos h1]; split_ifs <;> linarith
  · have := hA0 x ω'
    have := hA1 x ω'
    refine mul_nonneg (hq ω') (add_nonneg ?_ ?_) <;> split_ifs <;> linarith

/-- **The exact condition, with the noise of the code.** A Metropolis–Hastings chain whose every proposal changes class and
which never proposes a move it cannot accept forgets its start if and only if some proposal can be rejected. -/
theorem PathMH.forgets_iff [Fintype Ω] [DecidableEq X] {S : Finset X} {π : X → ℝ} {q : X → Ω → ℝ}
    {move : X → Ω → X} {rev : X → Ω → Ω} {lacc : X → Ω → ℝ} (H : PathMH S π q move rev lacc)
    (hS : S.Nonempty) {sgn : X → ℝ} (hsgn : ∀ x ∈ S, |sgn x| = 1)
    (hflip : ∀ x ∈ S, ∀ ω, q x ω ≠ 0 → sgn (move x ω) = - sgn x)
    (hirr : ∀ x ∈ S, ∀ y ∈ S, ∃ n, Walk S (fun a b => ∃ ω, move a ω = b ∧ 0 < q a ω) n x y)
    {M : ℕ} (hM : 0 < M) {tiny : ℝ} (h0 : 0 < tiny)
    (hacc : ∀ x ∈ S, ∀ ω, 0 < q x ω → tiny * (π x * q x ω) < π (move x ω) * q (move x ω) (rev x ω))
    {stepf : ℕ → X → Ω → ℝ → X} (h : ∀ t, IsMHStep S tiny move lacc (stepf t)) {K : ℕ → X → X → ℝ}
    (hK : ∀ t, ∀ x ∈ S, ∀ y, K t x y = lawG M (q x) (stepf t x) y) :
    Forgets S K ↔ ∃ x ∈ S, ∃ ω, 0 < q x ω ∧
      π (move x ω) * q (move x ω) (rev x ω) ≤ (1 - 1 / M + tiny) * (π x * q x ω) := by
  let L : X → X → ℝ := mhKernel q move fun x ω => acceptGrid M tiny (lacc x ω)
  have hA0 : ∀ x ω, 0 ≤ acceptGrid M tiny (lacc x ω) := fun _ _ => acceptGrid_nonneg _ _ _
  have hA1 : ∀ x ω, acceptGrid M tiny (lacc x ω) ≤ 1 := fun _ _ => acceptGrid_le_one _ _ _
  have hLs : Stochastic S L := stochastic_mhKernel H.prob H.closed hA0 hA1
  have hKL : ∀ t, ∀ x ∈ S, ∀ y, K t x y = L x y := fun t x hx y =>
    (hK t x hx y).trans ((h t).lawG_eq hM h0 q x hx y)
  have hne : ∀ x ∈ S, ∀ ω, q x ω ≠ 0 → move x ω ≠ x := by
    intro x hx ω hq e
    have h1 := hflip x hx ω hq
    have h2 := hsgn x hx
    rw [e] at h1
    have : sgn x = 0 := by linarith
    rw [this, abs_zero] at h2
    exact zero_ne_one h2
  have hrej : ∀ x ∈ S, ∀ ω, 0 < q x ω → (acceptGrid M tiny (lacc x ω) < 1 ↔
      π (move x ω) * q (move x ω) (rev x ω) ≤ (1 - 1 / M + tiny) * (π x * q x ω)) := by
    intro x hx ω hq
    rw [H.ratio x hx ω hq.ne' (hne x hx ω hq.ne'), acceptGrid_lt_one hM,
      mul_le_mul_iff_left₀ (mul_pos (H.pi_pos x hx) hq)]
  constructor
  · intro hF
    by_contra hcon
    push Not at hcon
    have hl : ∀ x ∈ S, ∀ ω, q x ω ≠ 0 → acceptGrid M tiny (lacc x ω) = 1 := by
      intro x hx ω hq
      have hp := lt_of_le_of_ne ((H.prob x hx).1 ω) hq.symm
      refine le_antisymm (hA1 x ω) (not_lt.1 fun hh => ?_)
      exact absurd ((hrej x hx ω hp).1 hh) (not_le.2 (hcon x hx ω hp))
    have heig : ∀ x ∈ S, ∑ y ∈ S, L x y * sgn y = (-1) * sgn x := by
      intro x hx
      rw [expect_mhKernel hx fun ω => H.closed x hx ω]
      have e : ∀ ω, q x ω * (acceptGrid M tiny (lacc x ω) * sgn (move x ω) +
          (1 - acceptGrid M tiny (lacc x ω)) * sgn x) = q x ω * ((-1) * sgn x) := by
        intro ω
        by_cases hq : q x ω = 0
        · rw [hq, zero_mul, zero_mul]
        · rw [hl x hx ω hq, hflip x hx ω hq]; ring
      rw [Finset.sum_congr rfl fun ω _ => e ω, ← Finset.sum_mul, (H.prob x hx).2, one_mul]
    obtain ⟨x, hx⟩ := hS
    obtain ⟨ω, -, hω⟩ : ∃ ω ∈ univ, q x ω ≠ 0 := by
      refine Finset.exists_ne_zero_of_sum_ne_zero ?_
      rw [(H.prob x hx).2]; exact one_ne_zero
    refine not_forgets_of_eigen (K := fun _ => L) (φ := sgn) (lam := -1) (by simp) (fun _ => heig)
      (fun y hy => (hsgn y hy).le) hx (H.closed x hx ω hω) (fun e => ?_) (hF.congr fun t x hx y => (hKL t x hx y).symm)
    have h1 := hflip x hx ω hω
    have h2 := hsgn x hx
    have : sgn x = 0 := by linarith
    rw [this, abs_zero] at h2
    exact zero_ne_one h2
  · rintro ⟨x, hx, ω, hq, hr⟩
    refine (forgets_of_irreducible hLs (fun a ha b hb => ?_) hx
      (mhKernel_pos_of hA0 hA1 (H.prob x hx).1 hq (Or.inr ⟨rfl, (hrej x hx ω hq).2 hr⟩))).congr hKL
    obtain ⟨n, hn⟩ := hirr a ha b hb
    refine ⟨n, Walk.mono (fun u hu v => ?_) hn⟩
    rintro ⟨ω, hω, hq⟩
    refine mhKernel_pos_of hA0 hA1 (H.prob u hu).1 hq (Or.inl ⟨hω, acceptGrid_pos hM ?_⟩)
    have := hacc u hu ω hq
    rw [H.ratio u hu ω hq.ne' (hne u hu ω hq.ne')] at this
    exact lt_of_mul_lt_mul_right this (mul_pos (H.pi_pos u hu) hq).le

end Discs.Spec
