import Verif.Lemmas.Walks
import Verif.Props.Periodic

/-!
# Chains that alternate between two classes unless they stay put

An irreducible chain that can stay somewhere converges; one whose every step changes class does not.
-/

namespace Discs.Spec

open Finset

variable {X Ω : Type*}

theorem Walk.mono {S : Finset X} {R R' : X → X → Prop} (h : ∀ x ∈ S, ∀ y, R x y → R' x y) :
    ∀ {n : ℕ} {x y : X}, Walk S R n x y → Walk S R' n x y
  | 0, _, _, hw => hw
  | _ + 1, _, _, ⟨z, hz, h1, h2⟩ => ⟨z, hz, Walk.mono h h1, h _ hz _ h2⟩

/-- If every state can be reached from every state and one state can be kept, then some number of steps
leads from every state to every state. -/
theorem Walk.uniform {S : Finset X} {R : X → X → Prop}
    (hirr : ∀ x ∈ S, ∀ y ∈ S, ∃ n, Walk S R n x y) {z : X} (hz : z ∈ S) (hzz : R z z) :
    ∃ m, 0 < m ∧ ∀ x ∈ S, ∀ y ∈ S, Walk S R m x y := by
  classical
  choose! len hlen using hirr
  have hstay : ∀ n, Walk S R n z z := by
    intro n
    induction n with
    | zero => rfl
    | succ n ih => exact ih.snoc hz hzz
  let L := ∑ x ∈ S, ∑ y ∈ S, len x y
  have hL : ∀ x ∈ S, ∀ y ∈ S, len x y ≤ L := fun x hx y hy =>
    (Finset.single_le_sum (f := fun y => len x y) (fun _ _ => Nat.zero_le _) hy).trans
      (Finset.single_le_sum (f := fun x => ∑ y ∈ S, len x y) (fun _ _ => Nat.zero_le _) hx)
  refine ⟨2 * L + 1, by omega, fun x hx y hy => ?_⟩
  have h1 := hL x hx z hz
  have h2 := hL z hz y hy
  have := ((hlen x hx z hz).trans (hstay (2 * L + 1 - len x z - len z y))).trans (hlen z hz y hy)
  rwa [show len x z + (2 * L + 1 - len x z - len z y) + len z y = 2 * L + 1 by omega] at this

theorem iterate_pos_of_walk [DecidableEq X] {S : Finset X} {K : X → X → ℝ} (hK : Stochastic S K) :
    ∀ {n : ℕ} {x y : X}, x ∈ S → y ∈ S → Walk S (fun a b => 0 < K a b) n x y →
      0 < iterate S (fun _ => K) n x y
  | 0, x, y, _, _, hw => by cases hw; simp [iterate]
  | n + 1, x, y, hx, hy, ⟨z, hz, h1, h2⟩ => by
    have hs := stochastic_iterate (fun _ => hK) n
    refine lt_of_lt_of_le (mul_pos (iterate_pos_of_walk hK hx hz h1) h2)
      (Finset.single_le_sum (f := fun w => iterate S (fun _ => K) n x w * K w y)
      (fun w hw => mul_nonneg (hs.1 x hx w) (hK.1 w hw _)) hz)

/-- An irreducible chain that keeps the target and can stay in some state converges. -/
theorem ergodic_of_irreducible [DecidableEq X] {S : Finset X} {π : X → ℝ} {K : X → X → ℝ}
    (hπ : ∀ x ∈ S, 0 < π x) (hK : Stochastic S K) (hinv : Invariant S π K)
    (hirr : ∀ x ∈ S, ∀ y ∈ S, ∃ n, Walk S (fun a b => 0 < K a b) n x y)
    {z : X} (hz : z ∈ S) (hzz : 0 < K z z) : Ergodic S π fun _ => K := by
  obtain ⟨m, hm, hw⟩ := Walk.uniform hirr hz hzz
  obtain ⟨c, h0, h1, hc⟩ := ergodic_of_pos (K := fun _ => K) hm one_pos hπ (fun _ => hK) (fun _ => hinv)
    (fun _ => rfl) fun _ x hx y hy => iterate_pos_of_walk hK hx hy (hw x hx y hy)
  exact ⟨m, hm, c, h0, h1, hc 0⟩

theorem Ergodic.congr [DecidableEq X] {S : Finset X} {π : X → ℝ} {K L : ℕ → X → X → ℝ}
    (hL : Ergodic S π L) (h : ∀ t, ∀ x ∈ S, ∀ y, K t x y = L t x y) : Ergodic S π K := by
  obtain ⟨m, hm, c, h0, h1, hc⟩ := hL
  exact ⟨m, hm, c, h0, h1, hc.congr h⟩

/-- **The exact condition.** A Metropolis–Hastings chain whose every proposal changes class (`sgn` is
`1` on one class and `-1` on the other), and which can reach every state, converges if and only if its
proposal is not already in detailed balance with the target, that is, if something is ever rejected. -/
theorem PathMH.ergodic_iff [Fintype Ω] [DecidableEq X] {S : Finset X} {π : X → ℝ} {q : X → Ω → ℝ}
    {move : X → Ω → X} {rev : X → Ω → Ω} {lacc : X → Ω → ℝ} (H : PathMH S π q move rev lacc)
    (hS : S.Nonempty) {sgn : X → ℝ} (hsgn : ∀ x ∈ S, |sgn x| = 1)
    (hflip : ∀ x ∈ S, ∀ ω, q x ω ≠ 0 → sgn (move x ω) = - sgn x)
    (hirr : ∀ x ∈ S, ∀ y ∈ S, ∃ n, Walk S (fun a b => ∃ ω, move a ω = b ∧ 0 < q a ω) n x y)
    {stepf : ℕ → X → Ω → ℝ → X} (h : ∀ t, IsMHStep S 0 move lacc (stepf t)) {K : ℕ → X → X → ℝ}
    (hK : ∀ t, ∀ x ∈ S, ∀ y, K t x y = lawU (q x) (stepf t x) y) :
    Ergodic S π K ↔ ∃ x ∈ S, ∃ ω, 0 < q x ω ∧ π x * q x ω ≠ π (move x ω) * q (move x ω) (rev x ω) := by
  let L : X → X → ℝ := mhKernel q move fun x ω => acceptProb 0 (lacc x ω)
  have hLs : Stochastic S L := stochastic_mhKernel H.prob H.closed (fun _ _ => acceptProb_nonneg _ _)
    (fun _ _ => acceptProb_le_one _ _)
  have hKL : ∀ t, ∀ x ∈ S, ∀ y, K t x y = L x y := fun t x hx y =>
    (hK t x hx y).trans ((h t).lawU_eq le_rfl q x hx y)
  have hLr : Reversible S π L := by
    have := H.reversible_step (h 0)
    intro x hx y hy
    have e1 := (hKL 0 x hx y).symm.trans (hK 0 x hx y)
    have e2 := (hKL 0 y hy x).symm.trans (hK 0 y hy x)
    rw [e1, e2]
    exact this x hx y hy
  have hLi := invariant_of_reversible hLr hLs
  have hne : ∀ x ∈ S, ∀ ω, q x ω ≠ 0 → move x ω ≠ x := by
    intro x hx ω hq e
    have h1 := hflip x hx ω hq
    have h2 := hsgn x hx
    rw [e] at h1
    have : sgn x = 0 := by linarith
    rw [this, abs_zero] at h2
    exact zero_ne_one h2
  constructor
  · intro hE
    by_contra hcon
    push Not at hcon
    have hl : ∀ x ∈ S, ∀ ω, q x ω ≠ 0 → lacc x ω = 0 := by
      intro x hx ω hq
      have hp := lt_of_le_of_ne ((H.prob x hx).1 ω) hq.symm
      have h1 := H.ratio x hx ω hq (hne x hx ω hq)
      rw [← hcon x hx ω hp] at h1
      have h2 : Real.exp (lacc x ω) = 1 := by
        have := mul_pos (H.pi_pos x hx) hp
        exact mul_right_cancel₀ this.ne' (by rw [one_mul]; exact h1.symm)
      rwa [Real.exp_eq_one_iff] at h2
    have heig : ∀ x ∈ S, ∑ y ∈ S, L x y * sgn y = (-1) * sgn x := by
      intro x hx
      rw [expect_mhKernel hx fun ω => H.closed x hx ω]
      have e : ∀ ω, q x ω * (acceptProb 0 (lacc x ω) * sgn (move x ω) +
          (1 - acceptProb 0 (lacc x ω)) * sgn x) = q x ω * ((-1) * sgn x) := by
        intro ω
        by_cases hq : q x ω = 0
        · rw [hq, zero_mul, zero_mul]
        · rw [hl x hx ω hq, hflip x hx ω hq, acceptProb_zero, Real.exp_zero, min_self]; ring
      rw [Finset.sum_congr rfl fun ω _ => e ω, ← Finset.sum_mul, (H.prob x hx).2, one_mul]
    have hmean : ∑ x ∈ S, π x * sgn x = 0 := by
      have e : ∑ y ∈ S, π y * sgn y = ∑ x ∈ S, π x * ((-1) * sgn x) := by
        rw [Finset.sum_congr rfl fun y hy => by rw [← hLi y hy]]
        simp only [Finset.sum_mul]
        rw [Finset.sum_comm]
        refine Finset.sum_congr rfl fun x hx => ?_
        rw [← heig x hx, Finset.mul_sum]
        exact Finset.sum_congr rfl fun y _ => by ring
      have e2 : ∑ x ∈ S, π x * ((-1) * sgn x) = - ∑ x ∈ S, π x * sgn x := by
        rw [← Finset.sum_neg_distrib]
        exact Finset.sum_congr rfl fun y _ => by ring
      linarith
    obtain ⟨x, hx⟩ := hS
    refine not_ergodic_of_l1 (K := fun _ => L) hx one_pos (fun n => ?_)
      (hE.congr fun t x hx y => (hKL t x hx y).symm)
    have h1 := expect_eigen (K := fun _ => L) (fun _ => heig) hx n
    have h2 : expect S (target S π) sgn = 0 := by
      unfold expect target
      rw [Finset.sum_congr rfl fun y _ => div_mul_eq_mul_div (π y) _ (sgn y), ← Finset.sum_div, hmean,
        zero_div]
    have h3 := expect_le_l1 (S := S) (p := iterate S (fun _ => L) n x) (q := target S π) (φ := sgn)
      fun y hy => (hsgn y hy).le
    rwa [h1, h2, sub_zero, abs_mul, hsgn x hx, mul_one, abs_pow, abs_neg, abs_one, one_pow] at h3
  · rintro ⟨x, hx, ω, hq, hneq⟩
    have hloop : ∀ z ∈ S, ∀ ω, 0 < q z ω → lacc z ω < 0 → 0 < L z z := by
      intro z hz ω hq hl
      have ha : acceptProb 0 (lacc z ω) < 1 := by
        rw [acceptProb_zero]; exact (min_le_right _ _).trans_lt (by rwa [Real.exp_lt_one_iff])
      refine lt_of_lt_of_le (mul_pos hq (sub_pos.2 ha)) ?_
      refine le_trans ?_ (Finset.single_le_sum (f := fun ω' => q z ω' *
        ((if move z ω' = z then acceptProb 0 (lacc z ω') else 0) +
          (if z = z then 1 - acceptProb 0 (lacc z ω') else 0))) (fun ω' _ => ?_) (mem_univ ω))
      · rw [if_neg (hne z hz ω hq.ne'), if_pos rfl, zero_add]
      · have := acceptProb_nonneg 0 (lacc z ω')
        have := acceptProb_le_one 0 (lacc z ω')
        refine mul_nonneg ((H.prob z hz).1 ω') (add_nonneg ?_ ?_) <;> split_ifs <;> linarith
    have hr := H.ratio x hx ω hq.ne' (hne x hx ω hq.ne')
    have hpos := mul_pos (H.pi_pos x hx) hq
    have hL' : ∃ z ∈ S, 0 < L z z := by
      have h0 : lacc x ω ≠ 0 := by
        intro h0
        rw [h0, Real.exp_zero, one_mul] at hr
        exact hneq hr.symm
      rcases lt_or_gt_of_ne h0 with hl | hl
      · exact ⟨x, hx, hloop x hx ω hq hl⟩
      · have hm := H.closed x hx ω hq.ne'
        refine ⟨_, hm, hloop _ hm (rev x ω) ?_ ?_⟩
        · have : 0 < π (move x ω) * q (move x ω) (rev x ω) := by
            rw [hr]; exact mul_pos (Real.exp_pos _) hpos
          exact pos_of_mul_pos_right this (H.pi_pos _ hm).le
        · rw [H.antisymm x hx ω hq.ne' (hne x hx ω hq.ne')]; linarith
    obtain ⟨z, hz, hzz⟩ := hL'
    refine (ergodic_of_irreducible H.pi_pos hLs hLi (fun a ha b hb => ?_) hz hzz).congr hKL
    obtain ⟨n, hn⟩ := hirr a ha b hb
    refine ⟨n, Walk.mono (fun u hu v => ?_) hn⟩
    rintro ⟨ω, hω, hq⟩
    exact mhKernel_pos (H.prob u hu).1 hω hq

end Discs.Spec
