import Verif.Model.BernEval
import Verif.Lemmas.IID

/-!
# C79: the Bernoulli evaluator measures the distance to the true moments
-/

namespace Discs

open Finset Spec

variable {T B D : ℕ}

section moments
variable {X : Type*} {K : Type*} [Fintype K] [DecidableEq K] {S : Finset X} {w : X → ℝ}

theorem sampleMean_center (s : Fin (T + 1) → Fin (B + 1) → Fin (D + 1) → ℝ) (b : Fin (B + 1))
    (i : Fin (D + 1)) (μ : ℝ) :
    bSampleMean s b i - μ = (∑ t, (s t b i - μ)) / ((T + 1 : ℕ) : ℝ) := by
  have : ((T + 1 : ℕ) : ℝ) ≠ 0 := by positivity
  unfold bSampleMean
  rw [Finset.sum_sub_distrib, sub_div]
  simp only [sum_const, card_univ, Fintype.card_fin, nsmul_eq_mul]
  rw [mul_div_cancel_left₀ _ this]

theorem sampleVar_center (s : Fin (T + 1) → Fin (B + 1) → Fin (D + 1) → ℝ) (b : Fin (B + 1))
    (i : Fin (D + 1)) (μ : ℝ) :
    ∑ t, (s t b i - bSampleMean s b i) ^ 2 =
      ∑ t, (s t b i - μ) ^ 2 - (∑ t, (s t b i - μ)) ^ 2 / ((T + 1 : ℕ) : ℝ) := by
  have hn : ((T + 1 : ℕ) : ℝ) ≠ 0 := by positivity
  have hm := sampleMean_center s b i μ
  have h1 : ∀ t, (s t b i - bSampleMean s b i) ^ 2 =
      (s t b i - μ) ^ 2 - 2 * (bSampleMean s b i - μ) * (s t b i - μ) +
        (bSampleMean s b i - μ) ^ 2 := fun t => by ring
  have h2 : ∑ t, (s t b i - μ) = ((T + 1 : ℕ) : ℝ) * (bSampleMean s b i - μ) := by
    rw [hm, mul_div_cancel₀ _ hn]
  rw [h2]
  simp only [h1, Finset.sum_add_distrib]
  rw [Finset.sum_sub_distrib, ← Finset.mul_sum, h2]
  simp only [sum_const, card_univ, Fintype.card_fin, nsmul_eq_mul]
  field_simp
  ring

/-- Expected squared error of the mean of independent draws. -/
theorem meanIID_sampleMean (hZ : ∑ x ∈ S, w x ≠ 0) (u : Fin (D + 1) → X → ℝ)
    (κ : Fin (T + 1) → Fin (B + 1) → K) (b : Fin (B + 1)) (i : Fin (D + 1))
    (hκ : Function.Injective fun t => κ t b) :
    meanIID K S w (fun ω => (bSampleMean (fun t b i => u i (ω (κ t b))) b i - mean S w (u i)) ^ 2) =
      variance S w (u i) / ((T + 1 : ℕ) : ℝ) := by
  have hn : ((T + 1 : ℕ) : ℝ) ≠ 0 := by positivity
  simp only [sampleMean_center, div_pow]
  have h := meanIID_sum_sq (K := K) hZ (u i) (fun t => κ t b) hκ
  simp only [div_eq_inv_mul]
  unfold meanIID at h ⊢
  rw [mean_mul_left, h]
  field_simp

end moments

/-- The average error is zero exactly if the statistics of every chain equal the target; no squared
error exceeds the reported maximum, which is attained; the average does not exceed the maximum. -/
theorem bMse_bounds (pred : Fin (B + 1) → Fin (D + 1) → ℝ) (target : Fin (D + 1) → ℝ) :
    0 ≤ bMse pred target ∧ bMse pred target ≤ bMaxMse pred target ∧
    (∀ b i, (pred b i - target i) ^ 2 ≤ bMaxMse pred target) ∧
    (∃ b i, bMaxMse pred target = (pred b i - target i) ^ 2) ∧
    (bMse pred target = 0 ↔ ∀ b i, pred b i = target i) := by
  have hpos : (0 : ℝ) < ((B + 1 : ℕ) : ℝ) * ((D + 1 : ℕ) : ℝ) := by positivity
  have hmax : ∀ b i, (pred b i - target i) ^ 2 ≤ bMaxMse pred target := fun b i =>
    Finset.le_sup' (fun q : Fin (B + 1) × Fin (D + 1) => (pred q.1 q.2 - target q.2) ^ 2)
      (mem_univ (b, i))
  refine ⟨?_, ?_, hmax, ?_, ?_⟩
  · exact div_nonneg (sum_nonneg fun b _ => sum_nonneg fun i _ => sq_nonneg _) hpos.le
  · unfold bMse
    rw [div_le_iff₀ hpos]
    calc ∑ b, ∑ i, (pred b i - target i) ^ 2
        ≤ ∑ _b : Fin (B + 1), ∑ _i : Fin (D + 1), bMaxMse pred target :=
          sum_le_sum fun b _ => sum_le_sum fun i _ => hmax b i
      _ = bMaxMse pred target * (((B + 1 : ℕ) : ℝ) * ((D + 1 : ℕ) : ℝ)) := by
          simp only [sum_const, card_univ, Fintype.card_fin, nsmul_eq_mul]; ring
  · obtain ⟨q, -, hq⟩ := Finset.exists_mem_eq_sup' (s := (univ : Finset (Fin (B + 1) × Fin (D + 1))))
      ⟨(0, 0), mem_univ _⟩ fun q => (pred q.1 q.2 - target q.2) ^ 2
    exact ⟨q.1, q.2, hq⟩
  · unfold bMse
    rw [div_eq_zero_iff, or_iff_left hpos.ne', sum_eq_zero_iff_of_nonneg fun b _ =>
      sum_nonneg fun i _ => sq_nonneg _]
    simp only [mem_univ, true_implies]
    refine forall_congr' fun b => ?_
    rw [sum_eq_zero_iff_of_nonneg fun i _ => sq_nonneg _]
    simp only [mem_univ, true_implies, sq_eq_zero_iff, sub_eq_zero]

/-- The weight of a sample under the Bernoulli model. -/
noncomputable abbrev bernW (p : Fin (D + 1) → ℝ) (x : Fin (D + 1) → ℤ) : ℝ :=
  Real.exp (bernForward p fun j => (x j : ℝ))

/-- The chain array whose entry at step `t` of chain `b` is the draw `ω (t, b)`. -/
def drawArray (ω : Fin (T + 1) × Fin (B + 1) → Fin (D + 1) → ℤ) :
    Fin (T + 1) → Fin (B + 1) → Fin (D + 1) → ℝ := fun t b i => (ω (t, b) i : ℝ)

theorem bernW_mass (p : Fin (D + 1) → ℝ) : ∑ x ∈ validStates 2 (D + 1), bernW p x ≠ 0 := by
  refine (Finset.sum_pos (fun x _ => Real.exp_pos _) ⟨fun _ => 0, ?_⟩).ne'
  simp [validStates]

/-- **C79 (mean errors).** For independent exact draws from the model, `T+1` per chain and `B+1` chains,
the expected average mean error is the average site variance divided by the number of steps; over the
last samples it is divided by the number of chains. -/
theorem bEvaluate_mean_error (p : Fin (D + 1) → ℝ) :
    meanIID (Fin (T + 1) × Fin (B + 1)) (validStates 2 (D + 1)) (bernW p)
        (fun ω => (bEvaluate p (drawArray ω)).1.avgMean) =
      (∑ i, variance (validStates 2 (D + 1)) (bernW p) fun x => (x i : ℝ)) / (D + 1 : ℕ) / (T + 1 : ℕ) ∧
    meanIID (Fin (T + 1) × Fin (B + 1)) (validStates 2 (D + 1)) (bernW p)
        (fun ω => (bEvaluate p (drawArray ω)).2.1) =
      (∑ i, variance (validStates 2 (D + 1)) (bernW p) fun x => (x i : ℝ)) / (D + 1 : ℕ) /
        (B + 1 : ℕ) := by
  have hB : ((B + 1 : ℕ) : ℝ) ≠ 0 := by positivity
  have hT : ((T + 1 : ℕ) : ℝ) ≠ 0 := by positivity
  have hD : ((D + 1 : ℕ) : ℝ) ≠ 0 := by positivity
  have key : ∀ (T' B' : ℕ) (κ : Fin (T' + 1) → Fin (B' + 1) → Fin (T + 1) × Fin (B + 1)),
      (∀ b, Function.Injective fun t => κ t b) →
      meanIID (Fin (T + 1) × Fin (B + 1)) (validStates 2 (D + 1)) (bernW p)
        (fun ω => bMse (bSampleMean fun t b i => (ω (κ t b) i : ℝ)) (bernExpected p)) =
      (∑ i, variance (validStates 2 (D + 1)) (bernW p) fun x => (x i : ℝ)) / (D + 1 : ℕ) /
        (T' + 1 : ℕ) := by
    intro T' B' κ hκ
    have hB' : ((B' + 1 : ℕ) : ℝ) ≠ 0 := by positivity
    have hT' : ((T' + 1 : ℕ) : ℝ) ≠ 0 := by positivity
    have h := fun b i => meanIID_sampleMean (D := D) (bernW_mass p)
      (fun (i : Fin (D + 1)) (x : Fin (D + 1) → ℤ) => (x i : ℝ)) κ b i (hκ b)
    simp only [← bernoulli_mean] at h
    unfold bMse
    simp only [div_eq_inv_mul]
    unfold meanIID at h ⊢
    rw [mean_mul_left, mean_sum']
    simp only [mean_sum', h]
    simp only [sum_const, card_univ, Fintype.card_fin, nsmul_eq_mul, ← Finset.sum_div]
    field_simp
  refine ⟨key T B (fun t b => (t, b)) fun b t t' h => (Prod.mk.inj h).1, ?_⟩
  exact key B 0 (fun b _ => (Fin.last T, b)) fun _ b b' h => (Prod.mk.inj h).2

/-- **C79 (variances).** With at least two steps, the per-chain variance the evaluator compares is
an unbiased estimate of the model's variance. -/
theorem bSampleVar_unbiased (hT : T ≠ 0) (p : Fin (D + 1) → ℝ) (b : Fin (B + 1)) (i : Fin (D + 1)) :
    ∃ v : (Fin (T + 1) × Fin (B + 1) → Fin (D + 1) → ℤ) → Fin (B + 1) → Fin (D + 1) → ℝ,
      (∀ ω, bSampleVar (drawArray ω) = some (v ω)) ∧
      meanIID (Fin (T + 1) × Fin (B + 1)) (validStates 2 (D + 1)) (bernW p) (fun ω => v ω b i) =
        bernVar p i := by
  refine ⟨_, fun ω => by rw [bSampleVar, if_neg hT], ?_⟩
  have hn : ((T + 1 : ℕ) : ℝ) ≠ 0 := by positivity
  have hn1 : ((T + 1 : ℕ) : ℝ) - 1 ≠ 0 := by
    push_cast; simpa using hT
  have hZ := bernW_mass p
  set μ := bernExpected p i with hμ
  have e : mean (validStates 2 (D + 1)) (bernW p) (fun x => (x i : ℝ)) = μ := (bernoulli_mean p i).symm
  have e' : variance (validStates 2 (D + 1)) (bernW p) (fun x => (x i : ℝ)) = bernVar p i :=
    (bernoulli_variance p i).symm
  have hs := meanIID_sum_sq (K := Fin (T + 1) × Fin (B + 1)) hZ (fun x => (x i : ℝ))
    (fun t : Fin (T + 1) => (t, b)) fun t t' h => (Prod.mk.inj h).1
  have hq : ∀ t : Fin (T + 1), meanIID (Fin (T + 1) × Fin (B + 1)) (validStates 2 (D + 1)) (bernW p)
      (fun ω => ((ω (t, b) i : ℝ) - μ) ^ 2) = bernVar p i := by
    intro t
    rw [meanIID_one hZ (t, b) fun x => ((x i : ℝ) - μ) ^ 2, ← e', variance, e]
  rw [e, e'] at hs
  have hlin : ∀ ω : Fin (T + 1) × Fin (B + 1) → Fin (D + 1) → ℤ,
      (∑ t, (drawArray ω t b i - bSampleMean (drawArray ω) b i) ^ 2) / (((T + 1 : ℕ) : ℝ) - 1) =
        (((T + 1 : ℕ) : ℝ) - 1)⁻¹ * ∑ t, ((ω (t, b) i : ℝ) - μ) ^ 2 +
        (-((((T + 1 : ℕ) : ℝ) - 1)⁻¹ * (((T + 1 : ℕ) : ℝ))⁻¹)) * (∑ t, ((ω (t, b) i : ℝ) - μ)) ^ 2 := by
    intro ω
    rw [sampleVar_center _ _ _ μ]
    simp only [drawArray]
    field_simp
    ring
  simp only [hlin]
  unfold meanIID at hs hq ⊢
  rw [mean_add', mean_mul_left, mean_mul_left, hs, mean_sum']
  simp only [hq, sum_const, card_univ, Fintype.card_fin, nsmul_eq_mul]
  field_simp
  ring

/-- **C79 (what the variance errors compare).** With two or more steps the average variance error is a
number, zero exactly if every chain's variance equals the model's; with a single step it is NaN. The
same over the last samples, with chains for steps. -/
theorem bEvaluate_var_error (p : Fin (D + 1) → ℝ)
    (s : Fin (T + 1) → Fin (B + 1) → Fin (D + 1) → ℝ) :
    (T = 0 → (bEvaluate p s).1.avgVar = none ∧ (bEvaluate p s).1.maxVar = none) ∧
    (T ≠ 0 → ∃ e m, (bEvaluate p s).1.avgVar = some e ∧ (bEvaluate p s).1.maxVar = some m ∧
      0 ≤ e ∧ e ≤ m ∧ (e = 0 ↔ ∀ b i,
        ∑ t, (s t b i - (∑ t, s t b i) / (T + 1 : ℕ)) ^ 2 = (T : ℝ) * bernVar p i)) ∧
    (B = 0 → (bEvaluate p s).2.2 = none) ∧
    (B ≠ 0 → ∃ e, (bEvaluate p s).2.2 = some e ∧ 0 ≤ e ∧ (e = 0 ↔ ∀ i,
        ∑ b, (s (Fin.last T) b i - (∑ b, s (Fin.last T) b i) / (B + 1 : ℕ)) ^ 2 =
          (B : ℝ) * bernVar p i)) := by
  have key : ∀ (n : ℕ), n ≠ 0 → ∀ a c : ℝ, a / (((n + 1 : ℕ) : ℝ) - 1) = c ↔ a = n * c := by
    intro n hn a c
    have : (n : ℝ) ≠ 0 := by exact_mod_cast hn
    push_cast
    rw [add_sub_cancel_right, div_eq_iff this, mul_comm]
  refine ⟨fun h => ?_, fun h => ?_, fun h => ?_, fun h => ?_⟩
  · simp [bEvaluate, bComputeError, bSampleVar, h]
  · have hb := bMse_bounds (fun b i => (∑ t, (s t b i - bSampleMean s b i) ^ 2) /
      (((T + 1 : ℕ) : ℝ) - 1)) (bernVar p)
    refine ⟨_, _, by simp only [bEvaluate, bComputeError, bSampleVar, if_neg h, Option.map_some],
      by simp only [bEvaluate, bComputeError, bSampleVar, if_neg h, Option.map_some], hb.1, hb.2.1,
      ?_⟩
    rw [hb.2.2.2.2]
    refine forall_congr' fun b => forall_congr' fun i => ?_
    exact key T h _ _
  · simp [bEvaluate, bComputeError, bSampleVar, h]
  · have hb := bMse_bounds (fun (b : Fin 1) i => (∑ t, (bLastSamples s t b i -
      bSampleMean (bLastSamples s) b i) ^ 2) / (((B + 1 : ℕ) : ℝ) - 1)) (bernVar p)
    refine ⟨_, by simp only [bEvaluate, bComputeError, bSampleVar, if_neg h, Option.map_some],
      hb.1, ?_⟩
    rw [hb.2.2.2.2]
    constructor
    · exact fun hh i => (key B h _ _).1 (hh 0 i)
    · exact fun hh b i => (key B h _ _).2 (hh i)

/-- **C79 (mean errors, any samples).** -/
theorem bEvaluate_mean_exact (p : Fin (D + 1) → ℝ)
    (s : Fin (T + 1) → Fin (B + 1) → Fin (D + 1) → ℝ) :
    0 ≤ (bEvaluate p s).1.avgMean ∧ (bEvaluate p s).1.avgMean ≤ (bEvaluate p s).1.maxMean ∧
    ((bEvaluate p s).1.avgMean = 0 ↔ ∀ b i, ∑ t, s t b i = (T + 1 : ℕ) * bernExpected p i) ∧
    ((bEvaluate p s).1.maxMean = 0 ↔ ∀ b i, ∑ t, s t b i = (T + 1 : ℕ) * bernExpected p i) ∧
    ((bEvaluate p s).2.1 = 0 ↔ ∀ i, ∑ b, s (Fin.last T) b i = (B + 1 : ℕ) * bernExpected p i) := by
  have key : ∀ (n : ℕ) (a c : ℝ), a / ((n + 1 : ℕ) : ℝ) = c ↔ a = (n + 1 : ℕ) * c := by
    intro n a c
    have : ((n + 1 : ℕ) : ℝ) ≠ 0 := by positivity
    rw [div_eq_iff this, mul_comm]
  obtain ⟨h1, h2, h3, ⟨b₀, i₀, h4⟩, h5⟩ := bMse_bounds (bSampleMean s) (bernExpected p)
  have h6 : (∀ b i, bSampleMean s b i = bernExpected p i) ↔
      ∀ b i, ∑ t, s t b i = (T + 1 : ℕ) * bernExpected p i :=
    forall_congr' fun b => forall_congr' fun i => key T _ _
  refine ⟨h1, h2, h5.trans h6, ?_, ?_⟩
  · rw [← h6]
    constructor
    · intro hm b i
      have := h3 b i
      have hm' : bMaxMse (bSampleMean s) (bernExpected p) = 0 := hm
      rw [hm'] at this
      exact sub_eq_zero.1 (pow_eq_zero_iff (two_ne_zero)|>.1 (le_antisymm this (sq_nonneg _)))
    · intro hh
      change bMaxMse (bSampleMean s) (bernExpected p) = 0
      rw [h4, hh]; simp
  · refine (bMse_bounds (bSampleMean (bLastSamples s)) (bernExpected p)).2.2.2.2.trans ?_
    constructor
    · exact fun hh i => (key B _ _).1 (hh 0 i)
    · exact fun hh b i => (key B _ _).2 (hh i)

/-- Concrete case: one site with parameter 0, two chains of two steps, samples 0,1 and 0,1. The mean is
exact (error 0), the variance 1/2 is off by 1/4; the last samples 1, 1 have mean error 1/4. -/
example : (bEvaluate (T := 1) (B := 1) (D := 0) (fun _ => 0) fun t _ _ => (t.val : ℝ)).1.avgMean = 0 ∧
    (bEvaluate (T := 1) (B := 1) (D := 0) (fun _ => 0) fun t _ _ => (t.val : ℝ)).1.avgVar =
      some (1 / 16) ∧
    (bEvaluate (T := 1) (B := 1) (D := 0) (fun _ => 0) fun t _ _ => (t.val : ℝ)).2.1 = 1 / 4 := by
  refine ⟨?_, ?_, ?_⟩ <;>
    simp [bEvaluate, bComputeError, bMse, bSampleMean, bSampleVar, bernExpected, bernVar, bLastSamples,
      Fin.sum_univ_succ] <;> norm_num

/-- The starts of the windows, in order. -/
theorem bWindowStarts_eq (n : ℕ) {size stride : ℕ} (hs : 0 < size) (hst : 0 < stride) :
    bWindowStarts n size stride =
      (List.range (if size ≤ n then (n - size) / stride + 1 else 0)).map (· * stride) := by
  unfold bWindowStarts
  set m := if size ≤ n then (n - size) / stride + 1 else 0 with hm
  have hle : m ≤ (n + stride - 1) / stride := by
    rw [hm]
    split_ifs with h
    · rw [← Nat.add_div_right _ hst]
      exact Nat.div_le_div_right (by omega)
    · exact Nat.zero_le _
  have hin : ∀ k, k < m ↔ k * stride + size ≤ n := by
    intro k
    rw [hm]
    split_ifs with h
    · rw [Nat.lt_add_one_iff, Nat.le_div_iff_mul_le hst]; omega
    · constructor
      · omega
      · intro h'; omega
  obtain ⟨d, hd⟩ := Nat.exists_eq_add_of_le hle
  rw [hd, List.range_add, List.map_append, List.takeWhile_append_of_pos]
  · rw [List.map_map]
    have : ((List.range d).map ((· * stride) ∘ fun x => m + x)).takeWhile
        (fun start : ℕ => !decide ((n : ℤ) - start < size)) = [] := by
      cases d with
      | zero => rfl
      | succ d =>
        rw [List.range_succ_eq_map, List.map_cons, List.takeWhile_cons_of_neg]
        have := (hin m).not.1 (lt_irrefl m)
        simp only [Function.comp, add_zero, Bool.not_eq_true', decide_eq_false_iff_not, not_not]
        push_cast
        have h2 : ((m * stride + size : ℕ) : ℤ) > n := by exact_mod_cast not_le.1 this
        push_cast at h2
        linarith
    rw [this, List.append_nil]
  · intro a ha
    obtain ⟨k, hk, rfl⟩ := List.mem_map.1 ha
    have := (hin k).1 (List.mem_range.1 hk)
    simp only [Bool.not_eq_true', decide_eq_false_iff_not, not_lt]
    have h2 : ((k * stride + size : ℕ) : ℤ) ≤ n := by exact_mod_cast this
    push_cast at h2 ⊢
    linarith

/-- The windows, in order. -/
theorem bWindows_eq {α : Type*} (chain : List α) {size stride : ℕ} (hs : 0 < size) (hst : 0 < stride) :
    bWindows chain size stride =
      (List.range (if size ≤ chain.length then (chain.length - size) / stride + 1 else 0)).map
        fun k => (chain.drop (k * stride)).take size := by
  unfold bWindows
  rw [bWindowStarts_eq _ hs hst, List.map_map]
  rfl

/-- **C79 (windows).** The mixing curve has one point per window start `0, stride, 2·stride, …` whose
window of `size` samples lies inside the chain, and every window has exactly `size` samples. -/
theorem bWindows_spec {α : Type*} (chain : List α) {size stride : ℕ} (hs : 0 < size)
    (hst : 0 < stride) :
    (∀ win, win ∈ bWindows chain size stride ↔
      ∃ k, k * stride + size ≤ chain.length ∧ win = (chain.drop (k * stride)).take size) ∧
    (∀ win ∈ bWindows chain size stride, win.length = size) ∧
    (bWindows chain size stride).length =
      if size ≤ chain.length then (chain.length - size) / stride + 1 else 0 := by
  set n := chain.length with hn
  have hstarts := bWindowStarts_eq n hs hst
  have hmem : ∀ win, win ∈ bWindows chain size stride ↔
      ∃ k, k * stride + size ≤ n ∧ win = (chain.drop (k * stride)).take size := by
    intro win
    unfold bWindows
    rw [← hn, hstarts]
    simp only [List.map_map, List.mem_map, List.mem_range, Function.comp]
    refine exists_congr fun k => ?_
    have : k < (if size ≤ n then (n - size) / stride + 1 else 0) ↔ k * stride + size ≤ n := by
      split_ifs with h
      · rw [Nat.lt_add_one_iff, Nat.le_div_iff_mul_le hst]; omega
      · constructor
        · omega
        · intro h'; omega
    rw [this, eq_comm]
  refine ⟨hmem, ?_, ?_⟩
  · intro win hw
    obtain ⟨k, hk, rfl⟩ := (hmem win).1 hw
    rw [List.length_take, List.length_drop]; omega
  · unfold bWindows
    rw [← hn, hstarts]; simp

/-- Concrete case: 7 steps, windows of 3, stride 2: windows start at 0, 2, 4. -/
example : bWindows [0, 1, 2, 3, 4, 5, 6] 3 2 = [[0, 1, 2], [2, 3, 4], [4, 5, 6]] := by decide

end Discs
