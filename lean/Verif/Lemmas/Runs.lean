import Verif.Spec.Runs
import Verif.Lemmas.Doeblin

/-!
# Averages along a run
-/

namespace Discs.Spec

open Finset

variable {X : Type*} {S : Finset X}

theorem runExpect_add (K : ℕ → X → X → ℝ) (n : ℕ) (x : X) (G H : List X → ℝ) :
    runExpect S K n x (fun l => G l + H l) = runExpect S K n x G + runExpect S K n x H := by
  induction n generalizing K x G H with
  | zero => rfl
  | succ n ih =>
    simp only [runExpect]
    rw [← Finset.sum_add_distrib]
    exact Finset.sum_congr rfl fun y _ => by rw [ih, mul_add]

theorem runExpect_mul (K : ℕ → X → X → ℝ) (n : ℕ) (x : X) (a : ℝ) (G : List X → ℝ) :
    runExpect S K n x (fun l => a * G l) = a * runExpect S K n x G := by
  induction n generalizing K x G with
  | zero => rfl
  | succ n ih =>
    simp only [runExpect]
    rw [Finset.mul_sum]
    exact Finset.sum_congr rfl fun y _ => by rw [ih, mul_left_comm]

theorem runExpect_const {K : ℕ → X → X → ℝ} (hK : ∀ t, Stochastic S (K t)) (n : ℕ) {x : X} (hx : x ∈ S)
    (a : ℝ) : runExpect S K n x (fun _ => a) = a := by
  induction n generalizing K x with
  | zero => rfl
  | succ n ih =>
    simp only [runExpect]
    rw [Finset.sum_congr rfl fun y hy => by rw [ih (fun t => hK (t + 1)) hy], ← Finset.sum_mul,
      (hK 0).2.1 x hx, one_mul]

theorem runExpect_mono {K : ℕ → X → X → ℝ} (hK : ∀ t, Stochastic S (K t)) (n : ℕ) {x : X} (hx : x ∈ S)
    {G H : List X → ℝ} (h : ∀ l, l.length = n → (∀ y ∈ l, y ∈ S) → G l ≤ H l) :
    runExpect S K n x G ≤ runExpect S K n x H := by
  induction n generalizing K x G H with
  | zero => exact h [] rfl (by simp)
  | succ n ih =>
    simp only [runExpect]
    refine Finset.sum_le_sum fun y hy => mul_le_mul_of_nonneg_left ?_ ((hK 0).1 x hx y)
    exact ih (fun t => hK (t + 1)) hy fun l hl hS => h (y :: l) (by simp [hl]) (by simpa [hy] using hS)

theorem runExpect_congr {K : ℕ → X → X → ℝ} (n : ℕ) (x : X)
    {G H : List X → ℝ} (h : ∀ l, l.length = n → (∀ y ∈ l, y ∈ S) → G l = H l) :
    runExpect S K n x G = runExpect S K n x H := by
  induction n generalizing K x G H with
  | zero => exact h [] rfl (by simp)
  | succ n ih =>
    simp only [runExpect]
    refine Finset.sum_congr rfl fun y hy => ?_
    rw [ih y fun l hl hS => h (y :: l) (by simp [hl]) (by simpa [hy] using hS)]

/-- The expected sum of `ψ` along a run is the sum of its expectations. -/
theorem runExpect_sum [DecidableEq X] {K : ℕ → X → X → ℝ} (hK : ∀ t, Stochastic S (K t)) (ψ : X → ℝ)
    (n : ℕ) {x : X} (hx : x ∈ S) :
    runExpect S K n x (fun l => (l.map ψ).sum) = ∑ i ∈ range n, expect S (iterate S K (i + 1) x) ψ := by
  induction n generalizing K x with
  | zero => rfl
  | succ n ih =>
    simp only [runExpect, List.map_cons, List.sum_cons]
    rw [Finset.sum_congr rfl fun y hy => by
      rw [runExpect_add, runExpect_const (fun t => hK (t + 1)) n hy, ih (fun t => hK (t + 1)) hy]]
    rw [Finset.sum_range_succ']
    simp only [mul_add]
    rw [Finset.sum_add_distrib, add_comm]
    congr 1
    · simp only [Finset.mul_sum]
      rw [Finset.sum_comm]
      refine Finset.sum_congr rfl fun i _ => ?_
      unfold expect
      have e0 : ∀ z ∈ S, iterate S K (i + 1 + 1) x z =
          push S (iterate S K 1 x) (iterate S (fun t => K (1 + t)) (i + 1)) z := fun z hz => by
        rw [show i + 1 + 1 = 1 + (i + 1) by omega, iterate_add K 1 (i + 1) x hz]
      refine Eq.trans ?_ (Finset.sum_congr rfl fun z hz => by rw [e0 z hz]).symm
      unfold push
      simp only [Finset.mul_sum, Finset.sum_mul]
      rw [Finset.sum_comm]
      refine Finset.sum_congr rfl fun z _ => Finset.sum_congr rfl fun y hy => ?_
      have e : iterate S K 1 x y = K 0 x y := by simp [iterate, comp, hx]
      have e2 : (fun i => K (1 + i)) = fun t => K (t + 1) := by funext i; rw [add_comm]
      rw [e, e2]; ring
    · unfold expect
      refine Finset.sum_congr rfl fun y _ => ?_
      have e : iterate S K 1 x y = K 0 x y := by simp [iterate, comp, hx]
      rw [zero_add, e]

theorem sum_pow_div_le {m : ℕ} (hm : 0 < m) {c : ℝ} (h0 : 0 ≤ c) (h1 : c < 1) (n : ℕ) :
    ∑ i ∈ range n, c ^ (i / m) ≤ m / (1 - c) := by
  have hc : 0 < 1 - c := by linarith
  induction n using Nat.strong_induction_on with
  | _ n ih =>
    rcases lt_or_ge n m with h | h
    · calc ∑ i ∈ range n, c ^ (i / m) ≤ ∑ _i ∈ range n, (1 : ℝ) :=
            Finset.sum_le_sum fun i _ => pow_le_one₀ h0 h1.le
        _ = n := by simp
        _ ≤ m := by exact_mod_cast h.le
        _ ≤ m / (1 - c) := by rw [le_div_iff₀ hc]; nlinarith [(Nat.cast_nonneg m : (0 : ℝ) ≤ m)]
    · obtain ⟨d, rfl⟩ := Nat.exists_eq_add_of_le h
      rw [Finset.sum_range_add]
      have e1 : ∑ i ∈ range m, c ^ (i / m) = m := by
        rw [Finset.sum_congr rfl fun i hi => by rw [Nat.div_eq_of_lt (Finset.mem_range.1 hi), pow_zero]]
        simp
      have e2 : ∑ i ∈ range d, c ^ ((m + i) / m) = c * ∑ i ∈ range d, c ^ (i / m) := by
        rw [Finset.mul_sum]
        refine Finset.sum_congr rfl fun i _ => ?_
        rw [Nat.add_div_left _ hm, pow_succ, mul_comm]
      rw [e1, e2]
      have := mul_le_mul_of_nonneg_left (ih d (by omega)) h0
      have e3 : (m : ℝ) + c * (m / (1 - c)) = m / (1 - c) := by field_simp; ring
      linarith

theorem sum_map_sub_const (φ : X → ℝ) (e : ℝ) (l : List X) :
    (l.map fun y => φ y - e).sum = (l.map φ).sum - l.length * e := by
  induction l with
  | nil => simp
  | cons a l ih =>
    simp only [List.map_cons, List.sum_cons, List.length_cons, ih]
    push_cast; ring

/-- A chain whose convergence is geometric and uniform over starting states and starting times has
consistent averages. -/
theorem consistent_of_converges [DecidableEq X] {π : X → ℝ} (hπ : ∀ x ∈ S, 0 < π x)
    {K : ℕ → X → X → ℝ} (hK : ∀ t, Stochastic S (K t)) {m : ℕ} (hm : 0 < m) {c err : ℝ} (hc0 : 0 ≤ c)
    (hc1 : c < 1) (he : 0 ≤ err) (h : ∀ t₀, ConvergesWithin S π (fun t => K (t₀ + t)) m c err) :
    Consistent S π K (4 + 8 * m / (1 - c)) (4 * err) := by
  intro φ M hφ x hx n hn
  have hc : 0 < 1 - c := by linarith
  have hM : 0 ≤ M := (abs_nonneg _).trans (hφ x hx)
  have hZ : 0 < ∑ x ∈ S, π x := Finset.sum_pos hπ ⟨x, hx⟩
  set e := expect S (target S π) φ with hedef
  have hE : |e| ≤ M := by
    have ht0 := target_nonneg (S := S) fun x hx => (hπ x hx).le
    calc |e| ≤ ∑ y ∈ S, |target S π y * φ y| := Finset.abs_sum_le_sum_abs _ _
      _ ≤ ∑ y ∈ S, target S π y * M := Finset.sum_le_sum fun y hy => by
          rw [abs_mul, abs_of_nonneg (ht0 y hy)]
          exact mul_le_mul_of_nonneg_left (hφ y hy) (ht0 y hy)
      _ = M := by rw [← Finset.sum_mul, sum_target hZ, one_mul]
  let ψ : X → ℝ := fun y => φ y - e
  have hψ : ∀ y ∈ S, |ψ y| ≤ 2 * M := fun y hy => by
    have := abs_sub (φ y) e
    have := hφ y hy
    dsimp only [ψ]
    linarith
  have hmean : ∀ t₀, ∀ y ∈ S, ∀ k, |runExpect S (fun t => K (t₀ + t)) k y (fun l => (l.map ψ).sum)| ≤
      (2 * (m / (1 - c)) + k * err) * M := by
    intro t₀ y hy k
    rw [runExpect_sum (fun t => hK (t₀ + t)) ψ k hy]
    have h1 : ∀ i, |expect S (iterate S (fun t => K (t₀ + t)) (i + 1) y) ψ| ≤
        (2 * c ^ (i / m) + err) * M := by
      intro i
      have hs := stochastic_iterate (fun t => hK (t₀ + t)) (i + 1)
      have e1 : expect S (iterate S (fun t => K (t₀ + t)) (i + 1) y) ψ =
          expect S (iterate S (fun t => K (t₀ + t)) (i + 1) y) φ - e := by
        unfold expect
        simp only [ψ, mul_sub]
        rw [Finset.sum_sub_distrib, ← Finset.sum_mul, hs.2.1 y hy, one_mul]
      rw [e1]
      refine ((h t₀).expect_le hφ hy (i + 1)).trans (mul_le_mul_of_nonneg_right ?_ hM)
      have := pow_le_pow_of_le_one hc0 hc1.le (Nat.div_le_div_right (c := m) (Nat.le_succ i))
      simp only [Nat.succ_eq_add_one] at this
      linarith
    calc |∑ i ∈ range k, expect S (iterate S (fun t => K (t₀ + t)) (i + 1) y) ψ|
        ≤ ∑ i ∈ range k, (2 * c ^ (i / m) + err) * M :=
          (Finset.abs_sum_le_sum_abs _ _).trans (Finset.sum_le_sum fun i _ => h1 i)
      _ = (2 * ∑ i ∈ range k, c ^ (i / m) + k * err) * M := by
          rw [← Finset.sum_mul, Finset.sum_add_distrib, ← Finset.mul_sum]; simp
      _ ≤ (2 * (m / (1 - c)) + k * err) * M :=
          mul_le_mul_of_nonneg_right (by linarith [sum_pow_div_le hm hc0 hc1 k]) hM
  have hsq : ∀ k t₀, ∀ y ∈ S, k ≤ n → runExpect S (fun t => K (t₀ + t)) k y (fun l => (l.map ψ).sum ^ 2) ≤
      k * ((2 * M) ^ 2 + 2 * (2 * M) * ((2 * (m / (1 - c)) + n * err) * M)) := by
    intro k
    induction k with
    | zero => intro t₀ y _ _; simp [runExpect]
    | succ k ih =>
      intro t₀ y hy hk
      simp only [runExpect, List.map_cons, List.sum_cons]
      have hsh : (fun t => K (t₀ + (t + 1))) = fun t => K (t₀ + 1 + t) := by
        funext t; congr 1; omega
      rw [hsh]
      have hbd : ∀ z ∈ S, runExpect S (fun t => K (t₀ + 1 + t)) k z
          (fun l => (ψ z + (l.map ψ).sum) ^ 2) ≤
          (k + 1 : ℕ) * ((2 * M) ^ 2 + 2 * (2 * M) * ((2 * (m / (1 - c)) + n * err) * M)) := by
        intro z hz
        have e1 : (fun l : List X => (ψ z + (l.map ψ).sum) ^ 2) =
            fun l => ψ z ^ 2 + (2 * ψ z * (l.map ψ).sum + (l.map ψ).sum ^ 2) := by
          funext l; ring
        rw [e1, runExpect_add, runExpect_add, runExpect_mul,
          runExpect_const (fun t => hK (t₀ + 1 + t)) k hz]
        have h1 := ih (t₀ + 1) z hz (by omega)
        have h2 := hmean (t₀ + 1) z hz k
        have h3 : ψ z ^ 2 ≤ (2 * M) ^ 2 := sq_le_sq' (by linarith [(abs_le.1 (hψ z hz)).1])
          (abs_le.1 (hψ z hz)).2
        have h4 : (k : ℝ) ≤ n := by exact_mod_cast (by omega : k ≤ n)
        have h5 : 2 * ψ z * runExpect S (fun t => K (t₀ + 1 + t)) k z (fun l => (l.map ψ).sum) ≤
            2 * (2 * M) * ((2 * (m / (1 - c)) + n * err) * M) := by
          refine (le_abs_self _).trans ?_
          rw [abs_mul, abs_mul, abs_of_pos (by norm_num : (0 : ℝ) < 2)]
          refine mul_le_mul (mul_le_mul_of_nonneg_left (hψ z hz) (by norm_num)) (h2.trans ?_)
            (abs_nonneg _) (by positivity)
          exact mul_le_mul_of_nonneg_right (by nlinarith) hM
        push_cast
        linarith
      calc _ ≤ ∑ z ∈ S, K (t₀ + 0) y z *
            ((k + 1 : ℕ) * ((2 * M) ^ 2 + 2 * (2 * M) * ((2 * (m / (1 - c)) + n * err) * M))) :=
            Finset.sum_le_sum fun z hz => mul_le_mul_of_nonneg_left (hbd z hz) ((hK _).1 y hy z)
        _ = _ := by rw [← Finset.sum_mul, (hK _).2.1 y hy, one_mul]
  have hfin := hsq n 0 x hx le_rfl
  simp only [zero_add] at hfin
  have hn' : (0 : ℝ) < n := by exact_mod_cast hn
  have e1 : runExpect S K n x (fun l => (runAverage φ l - e) ^ 2) =
      (1 / (n : ℝ) ^ 2) * runExpect S K n x (fun l => (l.map ψ).sum ^ 2) := by
    rw [← runExpect_mul]
    refine runExpect_congr n x fun l hl _ => ?_
    have e2 : (l.map ψ).sum = (l.map φ).sum - l.length * e := sum_map_sub_const φ e l
    rw [e2, hl]
    unfold runAverage
    rw [hl]
    field_simp
  rw [e1]
  calc 1 / (n : ℝ) ^ 2 * runExpect S K n x (fun l => (l.map ψ).sum ^ 2)
      ≤ 1 / (n : ℝ) ^ 2 * (n * ((2 * M) ^ 2 + 2 * (2 * M) * ((2 * (m / (1 - c)) + n * err) * M))) :=
        mul_le_mul_of_nonneg_left hfin (by positivity)
    _ = ((4 + 8 * m / (1 - c)) / n + 4 * err) * M ^ 2 := by field_simp; ring

/-- Chebyshev: the probability that the average of a run is off by at least `ε`. -/
theorem Consistent.prob_le [DecidableEq X] {π : X → ℝ} {K : ℕ → X → X → ℝ} {A err : ℝ}
    (h : Consistent S π K A err) (hK : ∀ t, Stochastic S (K t)) {φ : X → ℝ} {M : ℝ}
    (hφ : ∀ y ∈ S, |φ y| ≤ M) {x : X} (hx : x ∈ S) {n : ℕ} (hn : 0 < n) {ε : ℝ} (hε : 0 < ε) :
    runExpect S K n x (fun l => if ε ≤ |runAverage φ l - expect S (target S π) φ| then 1 else 0) ≤
      (A / n + err) * M ^ 2 / ε ^ 2 := by
  have h1 := h φ M hφ x hx n hn
  rw [le_div_iff₀ (by positivity), mul_comm, ← runExpect_mul]
  refine le_trans (runExpect_mono hK n hx fun l _ _ => ?_) h1
  split_ifs with hc
  · rw [mul_one, ← sq_abs (runAverage φ l - _)]
    exact pow_le_pow_left₀ hε.le hc 2
  · rw [mul_zero]; positivity

end Discs.Spec
