import Verif.Lemmas.Doeblin
import Mathlib.Analysis.SpecificLimits.Basic

/-!
# Chains that forget their start, without a known stationary law
-/

namespace Discs.Spec

open Finset Filter

variable {X : Type*}

/-- Kernels that repeat with period `P` and whose `m`-step probabilities are all positive forget where
they started. -/
theorem forgets_of_pos [DecidableEq X] {S : Finset X} {K : ℕ → X → X → ℝ} {m P : ℕ}
    (hP : 0 < P) (hK : ∀ t, Stochastic S (K t)) (hper : ∀ t, K (t + P) = K t)
    (hpos : ∀ t, ∀ x ∈ S, ∀ y ∈ S, 0 < iterate S (fun i => K (t + i)) m x y) :
    ∃ c, 0 ≤ c ∧ c < 1 ∧ ∀ x ∈ S, ∀ y ∈ S, ∀ n, l1 S (iterate S K n x) (iterate S K n y) ≤ 2 * c ^ (n / m) := by
  rcases S.eq_empty_or_nonempty with rfl | hS
  · exact ⟨0, le_rfl, zero_lt_one, fun x hx => absurd hx (Finset.notMem_empty x)⟩
  have hmod : ∀ t, K t = K (t % P) := by
    intro t
    have : ∀ q r, K (r + P * q) = K r := by
      intro q r
      induction q with
      | zero => simp
      | succ q ih => rw [Nat.mul_succ, ← add_assoc, hper, ih]
    conv_lhs => rw [← Nat.mod_add_div t P]
    exact this _ _
  have hne : ((Finset.range P ×ˢ S ×ˢ S)).Nonempty :=
    (Finset.nonempty_range_iff.2 hP.ne').product (hS.product hS)
  let F : ℕ × X × X → ℝ := fun q => iterate S (fun i => K (q.1 + i)) m q.2.1 q.2.2
  obtain ⟨q₀, hq₀, hmin⟩ := Finset.exists_min_image _ F hne
  simp only [Finset.mem_product, Finset.mem_range] at hq₀
  have hδ : 0 < F q₀ := hpos q₀.1 _ hq₀.2.1 _ hq₀.2.2
  have hsh : ∀ t, (fun i => K (t + i)) = fun i => K (t % P + i) := by
    intro t; funext i
    rw [hmod (t + i), hmod (t % P + i), Nat.mod_add_mod]
  have hlow : ∀ t, ∀ x ∈ S, ∀ y ∈ S, F q₀ ≤ iterate S (fun i => K (t + i)) m x y := by
    intro t x hx y hy
    rw [hsh t]
    exact hmin (t % P, x, y) (by
      simp only [Finset.mem_product, Finset.mem_range]
      exact ⟨Nat.mod_lt _ hP, hx, hy⟩)
  have hstoch := fun t => stochastic_iterate (fun i => hK (t + i)) m
  have hle1 : F q₀ ≤ 1 := by
    have h := (hstoch q₀.1).2.1 _ hq₀.2.1
    rw [← h]
    exact Finset.single_le_sum (f := fun y => iterate S (fun i => K (q₀.1 + i)) m q₀.2.1 y)
      (fun y _ => (hstoch q₀.1).1 _ hq₀.2.1 y) hq₀.2.2
  obtain ⟨z, hz⟩ := hS
  refine ⟨1 - F q₀, by linarith, by linarith, fun x hx y hy n => ?_⟩
  have hstep : ∀ a, l1 S (iterate S K (a + m) x) (iterate S K (a + m) y) ≤
      (1 - F q₀) * l1 S (iterate S K a x) (iterate S K a y) := by
    intro a
    have hs := stochastic_iterate hK a
    rw [l1_congr (fun w hw => iterate_add K a m x hw) fun w hw => iterate_add K a m y hw]
    refine l1_push_le (hstoch a) (ν := fun w => if z = w then 1 else 0) (by simp [hz])
      (fun w hw v hv => ?_) ((hs.2.1 x hx).trans (hs.2.1 y hy).symm)
    split_ifs
    · rw [mul_one]; exact hlow a w hw v hv
    · rw [mul_zero]; exact (hstoch a).1 w hw v
  have hbase : ∀ a, l1 S (iterate S K a x) (iterate S K a y) ≤ 2 := by
    intro a
    have hs := stochastic_iterate hK a
    calc l1 S (iterate S K a x) (iterate S K a y)
        ≤ ∑ w ∈ S, (iterate S K a x w + iterate S K a y w) := by
          refine Finset.sum_le_sum fun w hw => ?_
          have h1 := hs.1 x hx w
          have h2 := hs.1 y hy w
          rw [abs_le]; constructor <;> linarith
      _ = 2 := by rw [Finset.sum_add_distrib, hs.2.1 x hx, hs.2.1 y hy]; norm_num
  have key : ∀ q r, l1 S (iterate S K (r + m * q) x) (iterate S K (r + m * q) y) ≤ 2 * (1 - F q₀) ^ q := by
    intro q r
    induction q with
    | zero => simpa using hbase r
    | succ q ih =>
      rw [Nat.mul_succ, ← add_assoc]
      refine (hstep (r + m * q)).trans ((mul_le_mul_of_nonneg_left ih (by linarith)).trans (le_of_eq ?_))
      rw [pow_succ]; ring
  have := key (n / m) (n % m)
  rwa [Nat.mod_add_div] at this

/-- Averaging over the start: a law that is a mixture of laws close to `q` is close to `q`. -/
theorem l1_push_const_le {S : Finset X} {p q : X → ℝ} {K : X → X → ℝ} {ε : ℝ} (hp : ∀ x ∈ S, 0 ≤ p x)
    (hp1 : ∑ x ∈ S, p x = 1) (h : ∀ x ∈ S, l1 S (K x) q ≤ ε) : l1 S (push S p K) q ≤ ε := by
  unfold l1 push at *
  calc ∑ y ∈ S, |∑ x ∈ S, p x * K x y - q y|
      ≤ ∑ y ∈ S, ∑ x ∈ S, p x * |K x y - q y| := by
        refine Finset.sum_le_sum fun y _ => ?_
        have e : ∑ x ∈ S, p x * K x y - q y = ∑ x ∈ S, p x * (K x y - q y) := by
          simp only [mul_sub]; rw [Finset.sum_sub_distrib, ← Finset.sum_mul, hp1, one_mul]
        rw [e]
        refine (Finset.abs_sum_le_sum_abs _ _).trans (Finset.sum_le_sum fun x hx => ?_)
        rw [abs_mul, abs_of_nonneg (hp x hx)]
    _ = ∑ x ∈ S, p x * ∑ y ∈ S, |K x y - q y| := by
        rw [Finset.sum_comm]; simp only [Finset.mul_sum]
    _ ≤ ∑ x ∈ S, p x * ε := Finset.sum_le_sum fun x hx => mul_le_mul_of_nonneg_left (h x hx) (hp x hx)
    _ = ε := by rw [← Finset.sum_mul, hp1, one_mul]

/-- A periodic chain that forgets its start has a limit law at the multiples of its period. -/
theorem exists_limit_of_forgets [DecidableEq X] {S : Finset X} {K : ℕ → X → X → ℝ} {m P : ℕ} (hm : 0 < m)
    (hP : 0 < P) (hS : S.Nonempty) (hK : ∀ t, Stochastic S (K t)) (hper : ∀ t, K (t + P) = K t) {c : ℝ}
    (hc0 : 0 ≤ c) (hc1 : c < 1)
    (h : ∀ x ∈ S, ∀ y ∈ S, ∀ n, l1 S (iterate S K n x) (iterate S K n y) ≤ 2 * c ^ (n / m)) :
    ∃ μ : X → ℝ, (∀ y ∈ S, 0 ≤ μ y) ∧ ∑ y ∈ S, μ y = 1 ∧ Invariant S μ (iterate S K P) ∧
      ∀ x ∈ S, ∀ k, l1 S (iterate S K (k * P) x) μ ≤ 2 * c ^ (k * P / m) := by
  obtain ⟨x₀, hx₀⟩ := hS
  have hperk : ∀ k, (fun i => K (k * P + i)) = K := by
    intro k
    funext i
    induction k with
    | zero => simp
    | succ k ih => rw [Nat.succ_mul, add_right_comm, hper, ih]
  have hshift : ∀ k l, ∀ x, ∀ y ∈ S, iterate S K (k * P + l) x y =
      push S (iterate S K (k * P) x) (iterate S K l) y := by
    intro k l x y hy
    rw [iterate_add K (k * P) l x hy, hperk]
  have hcl : ∀ k l, ∀ x ∈ S, ∀ y ∈ S, l1 S (iterate S K ((k + l) * P) x) (iterate S K (k * P) y) ≤
      2 * c ^ (k * P / m) := by
    intro k l x hx y hy
    have hs := stochastic_iterate hK (l * P)
    have e : (k + l) * P = l * P + k * P := by ring
    rw [e, l1_congr (fun w hw => hshift l (k * P) x w hw) fun _ _ => rfl]
    exact l1_push_const_le (fun w _ => hs.1 x hx w) (hs.2.1 x hx) fun w hw => h w hw y hy _
  have htend : Tendsto (fun k : ℕ => 2 * c ^ (k * P / m)) atTop (nhds 0) := by
    have h1 : Tendsto (fun k : ℕ => k * P / m) atTop atTop := by
      refine tendsto_atTop.2 fun N => ?_
      filter_upwards [eventually_ge_atTop (N * m)] with k hk
      rw [Nat.le_div_iff_mul_le hm]
      exact hk.trans (Nat.le_mul_of_pos_right k hP)
    have := ((tendsto_pow_atTop_nhds_zero_of_lt_one hc0 hc1).comp h1).const_mul 2
    simpa using this
  have hcau : ∀ y ∈ S, ∃ v, Tendsto (fun k : ℕ => iterate S K (k * P) x₀ y) atTop (nhds v) := by
    intro y hy
    refine cauchySeq_tendsto_of_complete (cauchySeq_of_le_tendsto_0' (fun k : ℕ => 2 * c ^ (k * P / m))
      (fun k l hkl => ?_) htend)
    obtain ⟨d, rfl⟩ := Nat.exists_eq_add_of_le hkl
    rw [Real.dist_eq, abs_sub_comm]
    exact (Finset.single_le_sum (f := fun y => |iterate S K ((k + d) * P) x₀ y - iterate S K (k * P) x₀ y|)
      (fun _ _ => abs_nonneg _) hy).trans (hcl k d x₀ hx₀ x₀ hx₀)
  choose! μ hμ using hcau
  have hμ0 : ∀ y ∈ S, 0 ≤ μ y := fun y hy =>
    ge_of_tendsto' (hμ y hy) fun k => (stochastic_iterate hK _).1 x₀ hx₀ y
  have hμ1 : ∑ y ∈ S, μ y = 1 := by
    refine tendsto_nhds_unique (tendsto_finsetSum S fun y hy => hμ y hy) ?_
    simp only [fun k : ℕ => (stochastic_iterate hK (k * P)).2.1 x₀ hx₀]
    exact tendsto_const_nhds
  refine ⟨μ, hμ0, hμ1, fun y hy => ?_, fun x hx k => ?_⟩
  · have h1 : Tendsto (fun k : ℕ => ∑ x ∈ S, iterate S K (k * P) x₀ x * iterate S K P x y) atTop
        (nhds (∑ x ∈ S, μ x * iterate S K P x y)) :=
      tendsto_finsetSum S fun x hx => (hμ x hx).mul_const _
    have h2 : Tendsto (fun k : ℕ => iterate S K ((k + 1) * P) x₀ y) atTop (nhds (μ y)) :=
      (hμ y hy).comp (tendsto_add_atTop_nat 1)
    refine tendsto_nhds_unique h1 (h2.congr fun k => ?_)
    rw [Nat.succ_mul]
    exact hshift k P x₀ y hy
  · have h1 : Tendsto (fun l : ℕ => l1 S (iterate S K (k * P) x) (iterate S K ((l + k) * P) x₀)) atTop
        (nhds (l1 S (iterate S K (k * P) x) μ)) := by
      refine tendsto_finsetSum S fun y hy => ?_
      exact (tendsto_const_nhds.sub ((hμ y hy).comp (tendsto_add_atTop_nat k))).abs
    refine le_of_tendsto' h1 fun l => ?_
    have := hcl k l x₀ hx₀ x hx
    rw [add_comm l k]
    refine le_trans (le_of_eq ?_) this
    exact Finset.sum_congr rfl fun y _ => abs_sub_comm _ _

/-- If the law of a chain is close to the target at two successive times, the kernel in between nearly
preserves the target. -/
theorem defect_le [DecidableEq X] {S : Finset X} {K : ℕ → X → X → ℝ} (hK : ∀ t, Stochastic S (K t))
    {q : X → ℝ} (hq : ∑ y ∈ S, q y = 1) {x : X} (hx : x ∈ S) (n : ℕ) :
    l1 S (push S q (K n)) q ≤ l1 S (iterate S K n x) q + l1 S (iterate S K (n + 1) x) q := by
  have hs := stochastic_iterate hK n
  have h1 : l1 S (push S q (K n)) (push S (iterate S K n x) (K n)) ≤ (1 - 0) * l1 S q (iterate S K n x) :=
    l1_push_le (hK n) (ν := q) hq (fun z hz y _ => by rw [zero_mul]; exact (hK n).1 z hz y)
      (hq.trans (hs.2.1 x hx).symm)
  have h2 := l1_triangle S (push S q (K n)) (push S (iterate S K n x) (K n)) q
  have h3 : l1 S q (iterate S K n x) = l1 S (iterate S K n x) q :=
    Finset.sum_congr rfl fun y _ => abs_sub_comm _ _
  rw [iterate_succ_row]
  linarith

end Discs.Spec
