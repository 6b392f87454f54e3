import Verif.Spec.Search
import Verif.Lemmas.AnnealWalk

/-!
# Lemmas on what a run visits
-/

namespace Discs.Spec

open Finset

variable {X : Type*}

/-- A walk starts with its first move. -/
theorem Walk.cons {S : Finset X} {R : X → X → Prop} {n : ℕ} : ∀ {x z : X}, x ∈ S → z ∈ S → Walk S R (n + 1) x z →
    ∃ y ∈ S, R x y ∧ Walk S R n y z := by
  induction n with
  | zero =>
    rintro x z hx hz ⟨y, hy, rfl, h⟩
    exact ⟨z, hz, h, rfl⟩
  | succ n ih =>
    rintro x z hx hz ⟨y, hy, h1, h2⟩
    obtain ⟨w, hw, h3, h4⟩ := ih hx hy h1
    exact ⟨w, hw, h3, y, hy, h4, h2⟩

variable [DecidableEq X] {S : Finset X} {K : ℕ → X → X → ℝ}

theorem avoid_nonneg (hK : ∀ t, Stochastic S (K t)) {Y : Finset X} (n : ℕ) :
    ∀ t, ∀ x ∈ S, 0 ≤ avoid S K Y n t x := by
  induction n with
  | zero => intro t x _; unfold avoid; split_ifs <;> norm_num
  | succ n ih =>
    intro t x hx
    unfold avoid
    split_ifs
    · rfl
    · exact Finset.sum_nonneg fun z hz => mul_nonneg ((hK t).1 x hx z) (ih _ z hz)

theorem avoid_le_one (hK : ∀ t, Stochastic S (K t)) {Y : Finset X} (n : ℕ) :
    ∀ t, ∀ x ∈ S, avoid S K Y n t x ≤ 1 := by
  induction n with
  | zero => intro t x _; unfold avoid; split_ifs <;> norm_num
  | succ n ih =>
    intro t x hx
    unfold avoid
    split_ifs
    · norm_num
    · rw [← (hK t).2.1 x hx]
      exact Finset.sum_le_sum fun z hz => mul_le_of_le_one_right ((hK t).1 x hx z) (ih _ z hz)

/-- Moves of probability at least `a` lead from every state to `y` within `M` steps: a run that never visits `Y ∋ y` has a
probability that shrinks geometrically. -/
theorem avoid_le_of_walk (hK : ∀ t, Stochastic S (K t)) {R : X → X → Prop} {a : ℝ} (ha : 0 ≤ a) (ha1 : a ≤ 1) {N : ℕ}
    (hR : ∀ t < N, ∀ x ∈ S, ∀ z ∈ S, R x z → a ≤ K t x z) {y : X} (hy : y ∈ S) {Y : Finset X} (hyY : y ∈ Y)
    {M : ℕ}
    (hw : ∀ x ∈ S, ∃ m ≤ M, Walk S R m x y) (j : ℕ) :
    ∀ n, j * M ≤ n → ∀ t, t + n ≤ N → ∀ x ∈ S, avoid S K Y n t x ≤ (1 - a ^ M) ^ j := by
  induction j with
  | zero => intro n _ t _ x hx; rw [pow_zero]; exact avoid_le_one hK n t x hx
  | succ j ih =>
    have hc0 : 0 ≤ (1 - a ^ M) ^ j := pow_nonneg (by linarith [pow_le_one₀ (n := M) ha ha1]) j
    have key : ∀ m, ∀ x ∈ S, Walk S R m x y → ∀ n, j * M + m ≤ n → ∀ t, t + n ≤ N →
        avoid S K Y n t x ≤ (1 - a ^ M) ^ j * (1 - a ^ m) := by
      intro m
      induction m with
      | zero =>
        rintro x hx rfl n hn t _
        have : avoid S K Y n t x = 0 := by cases n <;> exact if_pos hyY
        rw [this]; simp
      | succ m ihm =>
        intro x hx hwk n hn t hN
        obtain ⟨n, rfl⟩ : ∃ n', n = n' + 1 := ⟨n - 1, by omega⟩
        obtain ⟨z, hz, hxz, hzy⟩ := hwk.cons hx hy
        have hpow : a ^ (m + 1) ≤ 1 := pow_le_one₀ ha ha1
        unfold avoid
        split_ifs with e
        · exact mul_nonneg hc0 (by linarith)
        have h1 := ihm z hz hzy n (by omega) (t + 1) (by omega)
        have h2 := hR t (by omega) x hx z hz hxz
        have h3 := (hK t).1 x hx
        rw [← Finset.add_sum_erase S _ hz]
        have h4 : ∑ w ∈ S.erase z, K t x w * avoid S K Y n (t + 1) w ≤
            ∑ w ∈ S.erase z, K t x w * (1 - a ^ M) ^ j :=
          Finset.sum_le_sum fun w hw => mul_le_mul_of_nonneg_left
            (ih n (by omega) _ (by omega) w (mem_of_mem_erase hw)) (h3 w)
        have h5 : ∑ w ∈ S.erase z, K t x w = 1 - K t x z := by
          rw [← (hK t).2.1 x hx, ← Finset.add_sum_erase S _ hz]; ring
        rw [← Finset.sum_mul, h5] at h4
        have h6 := mul_le_mul_of_nonneg_left h1 (h3 z)
        have h7 : a * a ^ m * (1 - a ^ M) ^ j ≤ K t x z * a ^ m * (1 - a ^ M) ^ j :=
          mul_le_mul_of_nonneg_right (mul_le_mul_of_nonneg_right h2 (pow_nonneg ha m)) hc0
        rw [pow_succ' a m]
        nlinarith
    intro n hn t hN x hx
    obtain ⟨m, hm, hwk⟩ := hw x hx
    refine (key m x hx hwk n (by rw [add_mul, one_mul] at hn; omega) t hN).trans ?_
    rw [pow_succ]
    refine mul_le_mul_of_nonneg_left ?_ hc0
    linarith [pow_le_pow_of_le_one ha ha1 hm]

/-- A closed set of states that contains none of `Y`. -/
theorem avoid_eq_one (hK : ∀ t, Stochastic S (K t)) {T : X → Prop}
    (hT : ∀ t, ∀ z ∈ S, T z → ∀ w ∈ S, ¬ T w → K t z w = 0) {Y : Finset X} (hY : ∀ y ∈ Y, ¬ T y) (n : ℕ) :
    ∀ t, ∀ x ∈ S, T x → avoid S K Y n t x = 1 := by
  induction n with
  | zero => intro t x hx hTx; exact if_neg fun e => hY x e hTx
  | succ n ih =>
    intro t x hx hTx
    unfold avoid
    rw [if_neg fun e => hY x e hTx, ← (hK t).2.1 x hx]
    refine Finset.sum_congr rfl fun z hz => ?_
    by_cases hTz : T z
    · rw [ih _ z hz hTz, mul_one]
    · rw [hT t x hx hTx z hz hTz, zero_mul]

/-- The move of a walk under the acceptance test of the code. -/
theorem PathMH.move_ge {Ω : Type*} [Fintype Ω] {S : Finset X} {π : X → ℝ} {q : X → Ω → ℝ}
    {move : X → Ω → X} {rev : X → Ω → Ω} {lacc : X → Ω → ℝ} (H : PathMH S π q move rev lacc) {a r tiny : ℝ}
    (ha : 0 < a) (hr1 : r ≤ 1) (ht : 0 ≤ tiny) {x y : X} (hx : x ∈ S) (hy : y ∈ S) (hr : r * π x ≤ π y)
    (hreach : ∃ ω, move x ω = y ∧ a ≤ q x ω ∧ a ≤ q y (rev x ω)) (hxy : x ≠ y) :
    a * r - tiny ≤ mhKernel q move (fun x ω => acceptProb tiny (lacc x ω)) x y := by
  have h0 := H.minor_pair ha hr1 hx hy hr hreach
  have hp := H.prob x hx
  have hd : mhKernel q move (fun x ω => acceptProb 0 (lacc x ω)) x y -
      mhKernel q move (fun x ω => acceptProb tiny (lacc x ω)) x y ≤ tiny := by
    unfold mhKernel
    rw [← Finset.sum_sub_distrib]
    calc _ ≤ ∑ ω, q x ω * tiny := Finset.sum_le_sum fun ω _ => ?_
      _ = tiny := by rw [← Finset.sum_mul, hp.2, one_mul]
    rw [← mul_sub]
    refine mul_le_mul_of_nonneg_left ?_ (hp.1 ω)
    simp only [if_neg hxy, add_zero]
    split_ifs
    · unfold acceptProb
      rcases le_total (min 1 (Real.exp (lacc x ω) - tiny)) 0 with e | e
      · rw [max_eq_left e]
        have h1 : Real.exp (lacc x ω) - tiny ≤ 0 := by
          rcases min_le_iff.1 e with h | h
          · linarith
          · exact h
        have h2 := Real.exp_pos (lacc x ω)
        rw [sub_zero, sub_zero]
        refine max_le ht ((min_le_right _ _).trans (by linarith))
      · rw [max_eq_right e, sub_zero]
        have h2 := Real.exp_pos (lacc x ω)
        rw [max_eq_right (le_min zero_le_one h2.le)]
        rcases le_total 1 (Real.exp (lacc x ω) - tiny) with h | h
        · rw [min_eq_left h]; linarith [min_le_left 1 (Real.exp (lacc x ω))]
        · rw [min_eq_right h]; linarith [min_le_right 1 (Real.exp (lacc x ω))]
    · linarith
  linarith

end Discs.Spec
