import Verif.Spec.Convergence
import Verif.Lemmas.SiteMH
import Mathlib.Algebra.BigOperators.Field
import Mathlib.Algebra.Order.BigOperators.Ring.Finset
import Mathlib.Tactic.LinearCombination

/-!
# Doeblin minorisation: from a lower bound on the transition probabilities to convergence
-/

namespace Discs.Spec

open Finset

variable {X Ω : Type*}

/-- The law after one step of `K` from the law `μ`. -/
def push (S : Finset X) (μ : X → ℝ) (K : X → X → ℝ) (y : X) : ℝ := ∑ x ∈ S, μ x * K x y

theorem l1_triangle (S : Finset X) (p q r : X → ℝ) : l1 S p r ≤ l1 S p q + l1 S q r := by
  unfold l1
  rw [← Finset.sum_add_distrib]
  exact Finset.sum_le_sum fun y _ => abs_sub_le _ _ _

theorem l1_nonneg (S : Finset X) (p q : X → ℝ) : 0 ≤ l1 S p q :=
  Finset.sum_nonneg fun _ _ => abs_nonneg _

theorem l1_congr {S : Finset X} {p p' q q' : X → ℝ} (hp : ∀ y ∈ S, p y = p' y)
    (hq : ∀ y ∈ S, q y = q' y) : l1 S p q = l1 S p' q' :=
  Finset.sum_congr rfl fun y hy => by rw [hp y hy, hq y hy]

/-- One step of a minorised kernel contracts. -/
theorem l1_push_le {S : Finset X} {L : X → X → ℝ} (hL : Stochastic S L) {ν : X → ℝ}
    (hν : ∑ y ∈ S, ν y = 1) {δ : ℝ} (hmin : ∀ x ∈ S, ∀ y ∈ S, δ * ν y ≤ L x y)
    {μ p : X → ℝ} (hμp : ∑ x ∈ S, μ x = ∑ x ∈ S, p x) :
    l1 S (push S μ L) (push S p L) ≤ (1 - δ) * l1 S μ p := by
  unfold l1 push
  calc ∑ y ∈ S, |∑ x ∈ S, μ x * L x y - ∑ x ∈ S, p x * L x y|
      = ∑ y ∈ S, |∑ x ∈ S, (μ x - p x) * (L x y - δ * ν y)| := by
        refine Finset.sum_congr rfl fun y _ => ?_
        congr 1
        have h0 : ∑ x ∈ S, (μ x - p x) = 0 := by rw [Finset.sum_sub_distrib, hμp, sub_self]
        have : ∑ x ∈ S, (μ x - p x) * (L x y - δ * ν y) =
            (∑ x ∈ S, μ x * L x y - ∑ x ∈ S, p x * L x y) - (∑ x ∈ S, (μ x - p x)) * (δ * ν y) := by
          rw [Finset.sum_mul, ← Finset.sum_sub_distrib, ← Finset.sum_sub_distrib]
          exact Finset.sum_congr rfl fun x _ => by ring
        rw [this, h0]; ring
    _ ≤ ∑ y ∈ S, ∑ x ∈ S, |μ x - p x| * (L x y - δ * ν y) := by
        refine Finset.sum_le_sum fun y hy => (Finset.abs_sum_le_sum_abs _ _).trans ?_
        refine Finset.sum_le_sum fun x hx => ?_
        rw [abs_mul, abs_of_nonneg (sub_nonneg.2 (hmin x hx y hy))]
    _ = ∑ x ∈ S, |μ x - p x| * (1 - δ) := by
        rw [Finset.sum_comm]
        refine Finset.sum_congr rfl fun x hx => ?_
        rw [← Finset.mul_sum, Finset.sum_sub_distrib, ← Finset.mul_sum, hν, hL.2.1 x hx, mul_one]
    _ = (1 - δ) * ∑ x ∈ S, |μ x - p x| := by rw [← Finset.sum_mul, mul_comm]

theorem sum_push {S : Finset X} {L : X → X → ℝ} (hL : Stochastic S L) (μ : X → ℝ) :
    ∑ y ∈ S, push S μ L y = ∑ x ∈ S, μ x := by
  unfold push
  rw [Finset.sum_comm]
  refine Finset.sum_congr rfl fun x hx => ?_
  rw [← Finset.mul_sum, hL.2.1 x hx, mul_one]

/-- Kernels with close rows push a law to close laws. -/
theorem l1_push_close {S : Finset X} {K L : X → X → ℝ} {ρ : ℝ}
    (h : ∀ x ∈ S, ∑ y ∈ S, |K x y - L x y| ≤ ρ) {μ : X → ℝ} (hμ : ∀ x ∈ S, 0 ≤ μ x)
    (hμ1 : ∑ x ∈ S, μ x = 1) : l1 S (push S μ K) (push S μ L) ≤ ρ := by
  unfold l1 push
  calc ∑ y ∈ S, |∑ x ∈ S, μ x * K x y - ∑ x ∈ S, μ x * L x y|
      ≤ ∑ y ∈ S, ∑ x ∈ S, μ x * |K x y - L x y| := by
        refine Finset.sum_le_sum fun y _ => ?_
        rw [← Finset.sum_sub_distrib]
        refine (Finset.abs_sum_le_sum_abs _ _).trans (Finset.sum_le_sum fun x hx => ?_)
        rw [← mul_sub, abs_mul, abs_of_nonneg (hμ x hx)]
    _ = ∑ x ∈ S, μ x * ∑ y ∈ S, |K x y - L x y| := by
        rw [Finset.sum_comm]; simp only [Finset.mul_sum]
    _ ≤ ∑ x ∈ S, μ x * ρ := Finset.sum_le_sum fun x hx => mul_le_mul_of_nonneg_left (h x hx) (hμ x hx)
    _ = ρ := by rw [← Finset.sum_mul, hμ1, one_mul]

theorem iterate_zero_row [DecidableEq X] {S : Finset X} (K : ℕ → X → X → ℝ) (x : X) :
    iterate S K 0 x = fun y => if x = y then 1 else 0 := rfl

theorem iterate_succ_row [DecidableEq X] {S : Finset X} (K : ℕ → X → X → ℝ) (n : ℕ) (x : X) :
    iterate S K (n + 1) x = push S (iterate S K n x) (K n) := rfl

/-- Running `a + b` steps is running `a` steps and then the next `b`. -/
theorem iterate_add [DecidableEq X] {S : Finset X} (K : ℕ → X → X → ℝ) (a b : ℕ) (x : X) {y : X}
    (hy : y ∈ S) :
    iterate S K (a + b) x y = push S (iterate S K a x) (iterate S (fun i => K (a + i)) b) y := by
  induction b generalizing y with
  | zero =>
    simp [push, iterate, hy]
  | succ b ih =>
    rw [← add_assoc, iterate_succ_row]
    unfold push
    rw [Finset.sum_congr rfl fun z hz => by rw [ih hz]]
    unfold push
    simp only [iterate_succ_row]
    unfold push
    simp only [Finset.sum_mul, Finset.mul_sum]
    rw [Finset.sum_comm]
    exact Finset.sum_congr rfl fun z _ => Finset.sum_congr rfl fun w _ => by ring

section target

variable {S : Finset X} {π : X → ℝ}

theorem sum_target (h : 0 < ∑ x ∈ S, π x) : ∑ x ∈ S, target S π x = 1 := by
  unfold target
  rw [← Finset.sum_div, div_self h.ne']

theorem target_nonneg (hπ : ∀ x ∈ S, 0 ≤ π x) : ∀ x ∈ S, 0 ≤ target S π x :=
  fun x hx => div_nonneg (hπ x hx) (Finset.sum_nonneg hπ)

theorem push_target {K : X → X → ℝ} (h : Invariant S π K) :
    ∀ y ∈ S, push S (target S π) K y = target S π y := by
  intro y hy
  unfold push target
  rw [← h y hy, Finset.sum_div]
  exact Finset.sum_congr rfl fun x _ => by ring

end target

theorem l1_iterate_close [DecidableEq X] {S : Finset X} {K L : ℕ → X → X → ℝ} {ρ : ℝ}
    (hK : ∀ t, Stochastic S (K t)) (hL : ∀ t, Stochastic S (L t))
    (h : ∀ t, ∀ x ∈ S, ∑ y ∈ S, |K t x y - L t x y| ≤ ρ) (n : ℕ) :
    ∀ x ∈ S, ∑ y ∈ S, |iterate S K n x y - iterate S L n x y| ≤ n * ρ := by
  intro x hx
  induction n with
  | zero => simp [iterate]
  | succ n ih =>
    have hs := stochastic_iterate hK n
    have hsL := stochastic_iterate hL n
    have h1 : l1 S (push S (iterate S K n x) (K n)) (push S (iterate S K n x) (L n)) ≤ ρ :=
      l1_push_close (h n) (fun y _ => hs.1 x hx y) (hs.2.1 x hx)
    have h2 : l1 S (push S (iterate S K n x) (L n)) (push S (iterate S L n x) (L n)) ≤
        (1 - 0) * l1 S (iterate S K n x) (iterate S L n x) :=
      l1_push_le (hL n) (ν := iterate S K n x) (hs.2.1 x hx)
        (fun z hz y hy => by rw [zero_mul]; exact (hL n).1 z hz y)
        ((hs.2.1 x hx).trans (hsL.2.1 x hx).symm)
    have h3 := l1_triangle S (push S (iterate S K n x) (K n)) (push S (iterate S K n x) (L n))
      (push S (iterate S L n x) (L n))
    show l1 S (iterate S K (n + 1) x) (iterate S L (n + 1) x) ≤ _
    rw [iterate_succ_row, iterate_succ_row]
    have h4 : l1 S (iterate S K n x) (iterate S L n x) ≤ n * ρ := ih
    push_cast
    linarith

/-- Doeblin: `K` runs within `ρ` of kernels `L` that leave `π` invariant and whose `m`-step
probabilities, from every time, dominate `δ` times a probability distribution. -/
theorem convergesWithin_of_minor [DecidableEq X] {S : Finset X} {π : X → ℝ} {K L : ℕ → X → X → ℝ}
    {ρ δ : ℝ} {m : ℕ} (hm : 0 < m) (hπ : ∀ x ∈ S, 0 < π x)
    (hK : ∀ t, Stochastic S (K t)) (hL : ∀ t, Stochastic S (L t))
    (hinv : ∀ t, Invariant S π (L t)) (hρ : 0 ≤ ρ)
    (hclose : ∀ t, ∀ x ∈ S, ∑ y ∈ S, |K t x y - L t x y| ≤ ρ)
    (hδ : 0 < δ) (hδ1 : δ ≤ 1) (ν : ℕ → X → ℝ) (hν : ∀ t, ∑ y ∈ S, ν t y = 1)
    (hmin : ∀ t, ∀ x ∈ S, ∀ y ∈ S, δ * ν t y ≤ iterate S (fun i => L (t + i)) m x y) :
    ConvergesWithin S π K m (1 - δ) (m * ρ / δ) := by
  intro x hx n
  have hZ : 0 < ∑ x ∈ S, π x := Finset.sum_pos hπ ⟨x, hx⟩
  have ht1 := sum_target hZ
  have ht0 := target_nonneg fun x hx => (hπ x hx).le
  have hstep : ∀ a, l1 S (iterate S K (a + m) x) (target S π) ≤
      (1 - δ) * l1 S (iterate S K a x) (target S π) + m * ρ := by
    intro a
    have hs := stochastic_iterate hK a
    set μ := iterate S K a x with hμ
    set KK := iterate S (fun i => K (a + i)) m with hKK
    set LL := iterate S (fun i => L (a + i)) m with hLL
    have hLLs : Stochastic S LL := stochastic_iterate (fun t => hL (a + t)) m
    have hLLi : Invariant S π LL := invariant_iterate (fun t => hinv (a + t)) m
    have e1 : l1 S (iterate S K (a + m) x) (target S π) = l1 S (push S μ KK) (push S (target S π) LL) :=
      l1_congr (fun y hy => iterate_add K a m x hy) fun y hy => (push_target hLLi y hy).symm
    have e2 : l1 S (push S μ KK) (push S μ LL) ≤ m * ρ :=
      l1_push_close (l1_iterate_close (fun t => hK (a + t)) (fun t => hL (a + t))
        (fun t => hclose (a + t)) m) (fun y _ => hs.1 x hx y) (hs.2.1 x hx)
    have e3 : l1 S (push S μ LL) (push S (target S π) LL) ≤ (1 - δ) * l1 S μ (target S π) :=
      l1_push_le hLLs (hν a) (hmin a) ((hs.2.1 x hx).trans ht1.symm)
    rw [e1]
    linarith [l1_triangle S (push S μ KK) (push S μ LL) (push S (target S π) LL)]
  have hbase : ∀ a, l1 S (iterate S K a x) (target S π) ≤ 2 := by
    intro a
    have hs := stochastic_iterate hK a
    calc l1 S (iterate S K a x) (target S π)
        ≤ ∑ y ∈ S, (iterate S K a x y + target S π y) := by
          refine Finset.sum_le_sum fun y hy => ?_
          have h1 := hs.1 x hx y
          have h2 := ht0 y hy
          rw [abs_le]; constructor <;> linarith
      _ = 2 := by rw [Finset.sum_add_distrib, hs.2.1 x hx, ht1]; norm_num
  have key : ∀ q r, l1 S (iterate S K (r + m * q) x) (target S π) ≤ 2 * (1 - δ) ^ q + m * ρ / δ := by
    intro q r
    have hfl : 0 ≤ m * ρ / δ := by positivity
    induction q with
    | zero => simp only [mul_zero, add_zero, pow_zero, mul_one]; linarith [hbase r]
    | succ q ih =>
      have := hstep (r + m * q)
      rw [Nat.mul_succ, ← add_assoc]
      refine this.trans ?_
      have h1 : (1 - δ) * l1 S (iterate S K (r + m * q) x) (target S π) ≤
          (1 - δ) * (2 * (1 - δ) ^ q + m * ρ / δ) :=
        mul_le_mul_of_nonneg_left ih (by linarith)
      have h2 : (1 - δ) * (2 * (1 - δ) ^ q + m * ρ / δ) + m * ρ =
          2 * (1 - δ) ^ (q + 1) + m * ρ / δ := by
        rw [pow_succ]; field_simp; ring
      linarith
  have := key (n / m) (n % m)
  rwa [Nat.mod_add_div] at this

/-- Convergence in distribution bounds the bias of any estimated expectation. -/
theorem ConvergesWithin.expect_le [DecidableEq X] {S : Finset X} {π : X → ℝ} {K : ℕ → X → X → ℝ}
    {m : ℕ} {c err : ℝ} (h : ConvergesWithin S π K m c err) {φ : X → ℝ} {M : ℝ}
    (hφ : ∀ y ∈ S, |φ y| ≤ M) {x : X} (hx : x ∈ S) (n : ℕ) :
    |expect S (iterate S K n x) φ - expect S (target S π) φ| ≤ (2 * c ^ (n / m) + err) * M := by
  have hM : 0 ≤ M := (abs_nonneg _).trans (hφ x hx)
  refine le_trans ?_ (mul_le_mul_of_nonneg_right (h x hx n) hM)
  unfold expect l1
  rw [← Finset.sum_sub_distrib, Finset.sum_mul]
  refine (Finset.abs_sum_le_sum_abs _ _).trans (Finset.sum_le_sum fun y hy => ?_)
  rw [← sub_mul, abs_mul]
  exact mul_le_mul_of_nonneg_left (hφ y hy) (abs_nonneg _)

/-- Periodic kernels whose `m`-step probabilities are all positive converge, at the same rate whatever
the time `t₀` at which the chain is started. -/
theorem ergodic_of_pos [DecidableEq X] {S : Finset X} {π : X → ℝ} {K : ℕ → X → X → ℝ} {m P : ℕ}
    (hm : 0 < m) (hP : 0 < P) (hπ : ∀ x ∈ S, 0 < π x) (hK : ∀ t, Stochastic S (K t))
    (hinv : ∀ t, Invariant S π (K t)) (hper : ∀ t, K (t + P) = K t)
    (hpos : ∀ t, ∀ x ∈ S, ∀ y ∈ S, 0 < iterate S (fun i => K (t + i)) m x y) :
    ∃ c, 0 ≤ c ∧ c < 1 ∧ ∀ t₀, ConvergesWithin S π (fun t => K (t₀ + t)) m c 0 := by
  rcases S.eq_empty_or_nonempty with rfl | hS
  · exact ⟨0, le_rfl, zero_lt_one, fun _ x hx => absurd hx (Finset.notMem_empty x)⟩
  have hmod : ∀ t, K t = K (t % P) := by
    intro t
    have : ∀ q r, K (r + P * q) = K r := by
      intro q r
      induction q with
      | zero => simp
      | succ q ih => rw [Nat.mul_succ, ← add_assoc, hper, ih]
    conv_lhs => rw [← Nat.mod_add_div t P]
    exact this _ _
  have hne : ((Finset.range P ×ˢ S ×ˢ S)).Nonempty :=
    (Finset.nonempty_range_iff.2 hP.ne').product (hS.product hS)
  let F : ℕ × X × X → ℝ := fun q => iterate S (fun i => K (q.1 + i)) m q.2.1 q.2.2
  obtain ⟨q₀, hq₀, hmin⟩ := Finset.exists_min_image _ F hne
  simp only [Finset.mem_product, Finset.mem_range] at hq₀
  have hδ : 0 < F q₀ := hpos q₀.1 _ hq₀.2.1 _ hq₀.2.2
  have hsh : ∀ t, (fun i => K (t + i)) = fun i => K (t % P + i) := by
    intro t; funext i
    rw [hmod (t + i), hmod (t % P + i), Nat.mod_add_mod]
  have hlow : ∀ t, ∀ x ∈ S, ∀ y ∈ S, F q₀ ≤ iterate S (fun i => K (t + i)) m x y := by
    intro t x hx y hy
    rw [hsh t]
    exact hmin (t % P, x, y) (by
      simp only [Finset.mem_product, Finset.mem_range]
      exact ⟨Nat.mod_lt _ hP, hx, hy⟩)
  have hstoch := fun t => stochastic_iterate (fun i => hK (t + i)) m
  have hZ : 0 < ∑ x ∈ S, π x := Finset.sum_pos hπ hS
  have hle1 : F q₀ ≤ 1 := by
    have h := (hstoch q₀.1).2.1 _ hq₀.2.1
    rw [← h]
    exact Finset.single_le_sum (f := fun y => iterate S (fun i => K (q₀.1 + i)) m q₀.2.1 y)
      (fun y _ => (hstoch q₀.1).1 _ hq₀.2.1 y) hq₀.2.2
  have htle : ∀ y ∈ S, target S π y ≤ 1 := by
    intro y hy
    unfold target
    rw [div_le_one hZ]
    exact Finset.single_le_sum (fun y hy => (hπ y hy).le) hy
  refine ⟨1 - F q₀, by linarith, by linarith, fun t₀ => ?_⟩
  have := convergesWithin_of_minor (K := fun t => K (t₀ + t)) (L := fun t => K (t₀ + t)) (ρ := 0)
    (δ := F q₀) hm hπ (fun _ => hK _) (fun _ => hK _) (fun _ => hinv _) le_rfl
    (fun t x _ => by simp) hδ hle1 (fun _ => target S π) (fun _ => sum_target hZ)
    (fun t x hx y hy => by
      simp only [← add_assoc]
      exact (mul_le_of_le_one_right hδ.le (htle y hy)).trans (hlow (t₀ + t) x hx y hy))
  simpa using this

/-- A Metropolis–Hastings kernel dominates its proposal floor times the target: if every state can be
reached by a draw that has probability at least `a` forwards and backwards, then
`K x y ≥ a · target y`. -/
theorem PathMH.minor [Fintype Ω] [DecidableEq X] {S : Finset X} {π : X → ℝ} {q : X → Ω → ℝ}
    {move : X → Ω → X} {rev : X → Ω → Ω} {lacc : X → Ω → ℝ} (H : PathMH S π q move rev lacc) {a : ℝ}
    (ha : 0 < a) (hreach : ∀ x ∈ S, ∀ y ∈ S, ∃ ω, move x ω = y ∧ a ≤ q x ω ∧ a ≤ q y (rev x ω)) :
    ∀ x ∈ S, ∀ y ∈ S, a * target S π y ≤
      mhKernel q move (fun x ω => acceptProb 0 (lacc x ω)) x y := by
  intro x hx y hy
  obtain ⟨ω, hm, h1, h2⟩ := hreach x hx y hy
  have hZ : 0 < ∑ x ∈ S, π x := Finset.sum_pos H.pi_pos ⟨x, hx⟩
  have hle : ∀ z ∈ S, π z ≤ ∑ x ∈ S, π x := fun z hz =>
    Finset.single_le_sum (fun y hy => (H.pi_pos y hy).le) hz
  have ht1 : target S π y ≤ 1 := by unfold target; rw [div_le_one hZ]; exact hle y hy
  have hterm : ∀ ω', 0 ≤ q x ω' * ((if move x ω' = y then acceptProb 0 (lacc x ω') else 0) +
      (if x = y then 1 - acceptProb 0 (lacc x ω') else 0)) := by
    intro ω'
    have := acceptProb_nonneg 0 (lacc x ω')
    have := acceptProb_le_one 0 (lacc x ω')
    refine mul_nonneg ((H.prob x hx).1 ω') (add_nonneg ?_ ?_)
    · split_ifs <;> linarith
    · split_ifs <;> linarith
  refine le_trans ?_ (Finset.single_le_sum (f := fun ω' => q x ω' *
    ((if move x ω' = y then acceptProb 0 (lacc x ω') else 0) +
      (if x = y then 1 - acceptProb 0 (lacc x ω') else 0))) (fun ω' _ => hterm ω') (mem_univ ω))
  have hq0 : q x ω ≠ 0 := (lt_of_lt_of_le ha h1).ne'
  have hq := (H.prob x hx).1 ω
  simp only [if_pos hm]
  by_cases hxy : x = y
  · rw [if_pos hxy]
    have e : acceptProb 0 (lacc x ω) + (1 - acceptProb 0 (lacc x ω)) = 1 := by ring
    rw [e, mul_one]
    nlinarith [target_nonneg (S := S) (fun z hz => (H.pi_pos z hz).le) y hy]
  · rw [if_neg hxy, add_zero, acceptProb_zero]
    have hr := H.ratio x hx ω hq0 (by rw [hm]; exact Ne.symm hxy)
    rw [hm] at hr
    have hpx := H.pi_pos x hx
    have hpy := H.pi_pos y hy
    have hty : 0 ≤ target S π y := div_nonneg hpy.le hZ.le
    rw [mul_min_of_nonneg _ _ hq]
    refine le_min ?_ ?_
    · nlinarith
    · have e : q x ω * Real.exp (lacc x ω) = π y * q y (rev x ω) / π x := by
        rw [hr]; field_simp
      rw [e, le_div_iff₀ hpx]
      have hty' : target S π y * π x ≤ π y := by
        unfold target
        rw [div_mul_eq_mul_div, div_le_iff₀ hZ]
        exact mul_le_mul_of_nonneg_left (hle x hx) hpy.le
      calc a * target S π y * π x = a * (target S π y * π x) := by ring
        _ ≤ a * π y := mul_le_mul_of_nonneg_left hty' ha.le
        _ ≤ π y * q y (rev x ω) := by nlinarith

/-- Raising the acceptance offset moves every row of a Metropolis–Hastings kernel by at most twice the
offset. -/
theorem mhKernel_tiny_close [Fintype Ω] [DecidableEq X] {S : Finset X} {q : X → Ω → ℝ}
    {move : X → Ω → X} {lacc : X → Ω → ℝ} {tiny : ℝ} (ht : 0 ≤ tiny) (x : X) (hq : IsProb (q x)) :
    ∑ y ∈ S, |mhKernel q move (fun x ω => acceptProb tiny (lacc x ω)) x y -
      mhKernel q move (fun x ω => acceptProb 0 (lacc x ω)) x y| ≤ 2 * tiny := by
  calc ∑ y ∈ S, |mhKernel q move (fun x ω => acceptProb tiny (lacc x ω)) x y -
        mhKernel q move (fun x ω => acceptProb 0 (lacc x ω)) x y|
      ≤ ∑ y ∈ S, ∑ ω, q x ω * ((if move x ω = y then tiny else 0) + (if x = y then tiny else 0)) := by
        refine Finset.sum_le_sum fun y _ => ?_
        unfold mhKernel
        rw [← Finset.sum_sub_distrib]
        refine (Finset.abs_sum_le_sum_abs _ _).trans (Finset.sum_le_sum fun ω _ => ?_)
        rw [← mul_sub, abs_mul, abs_of_nonneg (hq.1 ω)]
        refine mul_le_mul_of_nonneg_left ?_ (hq.1 ω)
        have hc := acceptProb_close ht (lacc x ω)
        rw [abs_le] at hc ⊢
        split_ifs <;> constructor <;> linarith
    _ = ∑ ω, q x ω * ((∑ y ∈ S, if move x ω = y then tiny else 0) + ∑ y ∈ S, if x = y then tiny else 0) := by
        rw [Finset.sum_comm]
        refine Finset.sum_congr rfl fun ω _ => ?_
        rw [← Finset.mul_sum, Finset.sum_add_distrib]
    _ ≤ ∑ ω, q x ω * (2 * tiny) := by
        refine Finset.sum_le_sum fun ω _ => mul_le_mul_of_nonneg_left ?_ (hq.1 ω)
        rw [Finset.sum_ite_eq, Finset.sum_ite_eq]
        split_ifs <;> linarith
    _ = 2 * tiny := by rw [← Finset.sum_mul, hq.2, one_mul]

/-- A run of Metropolis–Hastings steps converges: `q` is the actual law of the draws, `q'` the law the
acceptance ratio is computed for (within `δ` of `q`), and every state is reachable in one draw of
probability at least `a`. -/
theorem PathMH.convergesWithin [Fintype Ω] [DecidableEq X] {S : Finset X} {π : X → ℝ}
    {q q' : ℕ → X → Ω → ℝ} {move : X → Ω → X} {rev : X → Ω → Ω} {lacc : ℕ → X → Ω → ℝ}
    (H : ∀ t, PathMH S π (q' t) move rev (lacc t)) (hq : ∀ t, ∀ x ∈ S, IsProb (q t x))
    (hqc : ∀ t, ∀ x ∈ S, ∀ ω, q t x ω ≠ 0 → move x ω ∈ S)
    {ε : ℝ} (hclose : ∀ t, ∀ x ∈ S, ∑ ω, |q t x ω - q' t x ω| ≤ ε) {a : ℝ} (ha : 0 < a) (ha1 : a ≤ 1)
    (hreach : ∀ t, ∀ x ∈ S, ∀ y ∈ S, ∃ ω, move x ω = y ∧ a ≤ q' t x ω ∧ a ≤ q' t y (rev x ω))
    {tiny : ℝ} (ht : 0 ≤ tiny) {stepf : ℕ → X → Ω → ℝ → X}
    (h : ∀ t, IsMHStep S tiny move (lacc t) (stepf t)) {K : ℕ → X → X → ℝ}
    (hK : ∀ t, ∀ x ∈ S, ∀ y, K t x y = lawU (q t x) (stepf t x) y) :
    ConvergesWithin S π K 1 (1 - a) ((2 * tiny + ε) / a) := by
  intro x₀ hx₀
  revert x₀
  rcases S.eq_empty_or_nonempty with rfl | hS
  · intro x hx; exact absurd hx (Finset.notMem_empty x)
  obtain ⟨z, hz⟩ := hS
  have hA0 : ∀ tiny t x ω, 0 ≤ acceptProb tiny (lacc t x ω) := fun _ _ _ _ => acceptProb_nonneg _ _
  have hA1 : ∀ tiny t x ω, acceptProb tiny (lacc t x ω) ≤ 1 := fun _ _ _ _ => acceptProb_le_one _ _
  have hε : 0 ≤ ε := (Finset.sum_nonneg fun _ _ => abs_nonneg _).trans (hclose 0 z hz)
  have hKeq : ∀ t, ∀ x ∈ S, ∀ y, K t x y =
      mhKernel (q t) move (fun x ω => acceptProb tiny (lacc t x ω)) x y :=
    fun t x hx y => (hK t x hx y).trans ((h t).lawU_eq ht (q t) x hx y)
  have hLs : ∀ t, Stochastic S (mhKernel (q' t) move fun x ω => acceptProb 0 (lacc t x ω)) := fun t =>
    stochastic_mhKernel (H t).prob (H t).closed (hA0 0 t) (hA1 0 t)
  have hKs : ∀ t, Stochastic S (K t) := fun t => Stochastic.congr (hKeq t)
    (stochastic_mhKernel (hq t) (hqc t) (hA0 tiny t) (hA1 tiny t))
  have hπ := (H 0).pi_pos
  have hZ : 0 < ∑ x ∈ S, π x := Finset.sum_pos hπ ⟨z, hz⟩
  have := convergesWithin_of_minor (K := K)
    (L := fun t => mhKernel (q' t) move fun x ω => acceptProb 0 (lacc t x ω)) (ρ := 2 * tiny + ε) (δ := a)
    (m := 1) one_pos hπ hKs hLs (fun t => invariant_of_reversible (H t).reversible (hLs t))
    (by positivity) (fun t x hx => ?_) ha ha1 (fun _ => target S π) (fun _ => sum_target hZ)
    (fun t x hx y hy => ?_)
  · intro x hx n
    have := this x hx n
    simpa using this
  · rw [Finset.sum_congr rfl fun y _ => by rw [hKeq t x hx y]]
    calc _ ≤ ∑ y ∈ S, (|mhKernel (q t) move (fun x ω => acceptProb tiny (lacc t x ω)) x y -
              mhKernel (q t) move (fun x ω => acceptProb 0 (lacc t x ω)) x y| +
            |mhKernel (q t) move (fun x ω => acceptProb 0 (lacc t x ω)) x y -
              mhKernel (q' t) move (fun x ω => acceptProb 0 (lacc t x ω)) x y|) :=
          Finset.sum_le_sum fun y _ => abs_sub_le _ _ _
      _ ≤ 2 * tiny + ε := by
          rw [Finset.sum_add_distrib]
          exact add_le_add (mhKernel_tiny_close ht x (hq t x hx))
            ((mhKernel_close (hA0 0 t) (hA1 0 t) x).trans (hclose t x hx))
  · have e : iterate S (fun i => (fun t => mhKernel (q' t) move fun x ω => acceptProb 0 (lacc t x ω)) (t + i))
        1 x y = mhKernel (q' t) move (fun x ω => acceptProb 0 (lacc t x ω)) x y := by
      simp [iterate, comp, hx]
    rw [e]
    exact (H t).minor ha (hreach t) x hx y hy

/-- If each step may rewrite the coordinates in `T i` to anything, and the `T i` with `i < m` cover all
coordinates, then every state can be reached in `m` steps. -/
theorem iterate_pos_of_touch {ι V : Type*} [DecidableEq (ι → V)] {S : Finset (ι → V)}
    {K : ℕ → (ι → V) → (ι → V) → ℝ} {m : ℕ} (hK : ∀ t, Stochastic S (K t)) (T : ℕ → Set ι)
    (hpos : ∀ t, ∀ x ∈ S, ∀ y ∈ S, (∀ j, j ∉ T t → y j = x j) → 0 < K t x y)
    (hmix : ∀ x ∈ S, ∀ y ∈ S, ∀ z : ι → V, (∀ j, z j = x j ∨ z j = y j) → z ∈ S)
    (hcov : ∀ j, ∃ i < m, j ∈ T i) : ∀ x ∈ S, ∀ y ∈ S, 0 < iterate S K m x y := by
  classical
  intro x hx y hy
  let z : ℕ → ι → V := fun n j => if ∃ i < n, j ∈ T i then y j else x j
  have hzS : ∀ n, z n ∈ S := fun n => hmix x hx y hy _ fun j => by
    dsimp only [z]; split_ifs; exacts [Or.inr rfl, Or.inl rfl]
  have key : ∀ n, 0 < iterate S K n x (z n) := by
    intro n
    induction n with
    | zero =>
      have : z 0 = x := by funext j; simp [z]
      rw [this]; simp [iterate]
    | succ n ih =>
      have hs := stochastic_iterate hK n
      refine lt_of_lt_of_le ?_ (Finset.single_le_sum
        (f := fun w => iterate S K n x w * K n w (z (n + 1)))
        (fun w hw => mul_nonneg (hs.1 x hx w) ((hK n).1 w hw _)) (hzS n))
      refine mul_pos ih (hpos n _ (hzS n) _ (hzS (n + 1)) fun j hj => ?_)
      dsimp only [z]
      refine if_congr ?_ rfl rfl
      constructor
      · rintro ⟨i, hi, hji⟩
        rcases Nat.lt_succ_iff_lt_or_eq.1 hi with h | rfl
        · exact ⟨i, h, hji⟩
        · exact absurd hji hj
      · rintro ⟨i, hi, hji⟩; exact ⟨i, by omega, hji⟩
  have : z m = y := by funext j; exact if_pos (hcov j)
  rw [← this]; exact key m

theorem iterate_congr [DecidableEq X] {S : Finset X} {K L : ℕ → X → X → ℝ}
    (h : ∀ t, ∀ x ∈ S, ∀ y, K t x y = L t x y) (n : ℕ) : ∀ x ∈ S, ∀ y, iterate S K n x y = iterate S L n x y := by
  induction n with
  | zero => intro x _ y; rfl
  | succ n ih =>
    intro x hx y
    simp only [iterate, comp]
    exact Finset.sum_congr rfl fun z hz => by rw [ih x hx z, h n z hz y]

theorem ConvergesWithin.congr [DecidableEq X] {S : Finset X} {π : X → ℝ} {K L : ℕ → X → X → ℝ} {m : ℕ}
    {c err : ℝ} (hL : ConvergesWithin S π L m c err) (h : ∀ t, ∀ x ∈ S, ∀ y, K t x y = L t x y) :
    ConvergesWithin S π K m c err := by
  intro x hx n
  rw [l1_congr (fun y _ => iterate_congr h n x hx y) fun _ _ => rfl]
  exact hL x hx n

theorem law_pos [Fintype Ω] [DecidableEq X] {p : Ω → ℝ} (hp : ∀ ω, 0 ≤ p ω) {f : Ω → X} {ω₀ : Ω}
    (h : 0 < p ω₀) : 0 < law p f (f ω₀) := by
  refine lt_of_lt_of_le h ?_
  have := Finset.single_le_sum (f := fun ω => if f ω = f ω₀ then p ω else 0)
    (fun ω _ => by split_ifs; exacts [hp ω, le_rfl]) (mem_univ ω₀)
  simpa [law] using this

end Discs.Spec
