import Mathlib.Tactic.Linarith
import Mathlib.Tactic.NormNum
import Mathlib.Tactic.Ring
import Mathlib.Tactic.FieldSimp
import Mathlib.Tactic.Positivity
import Verif.Model.Optimizer
import Verif.Props.TrainLoop

/-!
# C128: how far a training update moves the parameters

Whatever the data, the model and the gradients are.
-/

namespace Discs

open Finset

section Opt

variable {P : Type*} [Fintype P]

/-! ### Which optimiser is built -/

/-- **C128 (settings).**  Gradients are clipped exactly if `grad_norm` is positive, at that value; `weight_decay` has
an effect with `adamw` only. -/
theorem buildOptimizer_spec {c : OptCfg} {o : Optimizer} (h : buildOptimizer c = some o) :
    (∀ x, o.clip = some x ↔ c.gradNorm = some x ∧ 0 < x) ∧
      (c.name = some "adam" ∧ o.decay = 0 ∨
        (c.name = none ∨ c.name = some "adamw") ∧ o.decay = c.weightDecay.getD 0) := by
  have hclip : ∀ x : ℝ, (if (0.0 : ℝ) < c.gradNorm.getD 0.0 then some (c.gradNorm.getD 0.0) else none) = some x ↔
      c.gradNorm = some x ∧ 0 < x := by
    intro x
    norm_num only
    cases hg : c.gradNorm with
    | none => simp
    | some y =>
      simp only [Option.getD_some]
      split_ifs with h
      · simp only [Option.some.injEq]
        exact ⟨fun e => ⟨e, e ▸ h⟩, fun e => e.1⟩
      · simp only [Option.some.injEq, false_iff, not_and]
        rintro rfl
        exact h
  unfold buildOptimizer at h
  generalize (if (0.0 : ℝ) < c.gradNorm.getD 0.0 then some (c.gradNorm.getD 0.0) else none) = cl at h hclip
  dsimp only at h
  split at h
  · rename_i hn
    obtain rfl := Option.some.inj h
    refine ⟨hclip, Or.inl ⟨?_, rfl⟩⟩
    cases hc : c.name with
    | none => rw [hc] at hn; simp at hn
    | some s => rw [hc] at hn; simpa using hn
  · rename_i hn
    obtain rfl := Option.some.inj h
    refine ⟨hclip, Or.inr ⟨?_, by norm_num⟩⟩
    cases hc : c.name with
    | none => exact Or.inl rfl
    | some s => rw [hc] at hn; right; simpa using hn
  · cases h

/-- Both training configurations: `adam`, with and without clipping. -/
example : buildOptimizer ⟨some "adam", some 0, some 0.3⟩ = some ⟨none, 0⟩ ∧
    buildOptimizer ⟨some "adam", some 5, none⟩ = some ⟨some 5, 0⟩ := by
  constructor <;> norm_num [buildOptimizer]

/-! ### Clipping -/

/-- **C128 (clipping).**  A gradient shorter than the bound is passed on; any other one is shortened to the bound
without change of direction. -/
theorem clipGlobal_spec {c : ℝ} (hc : 0 < c) (g : P → ℝ) :
    (globalNorm g < c → clipGlobal c g = g) ∧
      (c ≤ globalNorm g → globalNorm (clipGlobal c g) = c ∧ ∃ k, 0 < k ∧ k ≤ 1 ∧ ∀ i, clipGlobal c g i = k * g i) := by
  refine ⟨fun h => if_pos h, fun h => ?_⟩
  have hn : 0 < globalNorm g := lt_of_lt_of_le hc h
  have e : clipGlobal c g = fun i => c / globalNorm g * g i := by
    rw [clipGlobal, if_neg (not_lt.2 h)]
    funext i
    ring
  have hk : 0 < c / globalNorm g := div_pos hc hn
  refine ⟨?_, c / globalNorm g, hk, (div_le_one hn).2 h, fun i => by rw [e]⟩
  rw [e]
  have : ∑ i, (c / globalNorm g * g i) ^ 2 = (c / globalNorm g) ^ 2 * ∑ i, g i ^ 2 := by
    rw [mul_sum]
    exact sum_congr rfl fun i _ => by ring
  rw [globalNorm, this, Real.sqrt_mul (sq_nonneg _), Real.sqrt_sq hk.le]
  exact div_mul_cancel₀ c hn.ne'

/-! ### Bound of one update -/

/-- The average of the gradients is at most ten times the root of the average of their squares, with the corrections
for the start: `s` is the average of the squares with the weights of the first average. -/
private structure Inv (st : AdamState P) (i : P) : Prop where
  ex : ∃ s, st.mu i ^ 2 ≤ (1 - 0.9 ^ st.count) * s ∧ s ≤ 100 * st.nu i ∧ 0 ≤ s

private theorem cs {m g s A : ℝ} (hA : 0 ≤ A) (hs : 0 ≤ s) (h : m ^ 2 ≤ A * s) : 2 * (m * g) ≤ A * g ^ 2 + s := by
  have h1 : |m| ≤ √A * √s := by
    rw [← Real.sqrt_mul hA]
    exact Real.abs_le_sqrt h
  have h2 : m * g ≤ √A * √s * |g| := by
    calc m * g ≤ |m * g| := le_abs_self _
      _ = |m| * |g| := abs_mul _ _
      _ ≤ _ := mul_le_mul_of_nonneg_right h1 (abs_nonneg _)
  have h3 := sq_nonneg (√A * |g| - √s)
  have h4 := Real.sq_sqrt hA
  have h5 := Real.sq_sqrt hs
  have h6 := sq_abs g
  have h7 : (√A * |g| - √s) ^ 2 = √A ^ 2 * |g| ^ 2 - 2 * (√A * √s * |g|) + √s ^ 2 := by ring
  rw [h7, h4, h5, h6] at h3
  linarith

private theorem inv_step (o : Optimizer) (sched : ℕ → ℝ) (g : P → ℝ) {st : AdamState P} {i : P} (h : Inv st i) :
    Inv (optStep o sched g st) i := by
  obtain ⟨s, h1, h2, h0⟩ := h.ex
  unfold optStep
  generalize o.clipped g = g'
  have hA : (0 : ℝ) ≤ 1 - 0.9 ^ st.count := by
    have : (0.9 : ℝ) ^ st.count ≤ 1 := pow_le_one₀ (by norm_num) (by norm_num)
    linarith
  refine ⟨0.1 * g' i ^ 2 + 0.9 * s, ?_, ?_, by positivity⟩
  · have h3 := cs (g := g' i) hA h0 h1
    simp only [pow_succ (0.9 : ℝ)]
    obtain ⟨A, hAe⟩ : ∃ A : ℝ, A = 1 - 0.9 ^ st.count := ⟨_, rfl⟩
    rw [show (0.9 : ℝ) ^ st.count = 1 - A by linarith]
    rw [← hAe] at h1 h3
    nlinarith [sq_nonneg (g' i)]
  · simp only
    nlinarith [sq_nonneg (g' i)]

private theorem inv_run (o : Optimizer) (sched : ℕ → ℝ) (grad : ℕ → (P → ℝ) → P → ℝ) (p : P → ℝ) (i : P) (t : ℕ) :
    Inv (optRun o sched grad p t) i := by
  induction t with
  | zero => exact ⟨0, by simp [optRun, adamInit], by simp [optRun, adamInit], le_rfl⟩
  | succ t ih => exact inv_step o sched _ ih

omit [Fintype P] in
private theorem ratio_le {st : AdamState P} {i : P} (h : Inv st i) (hc : 0 < st.count) :
    |st.mu i / (1 - 0.9 ^ st.count) / (√(st.nu i / (1 - 0.999 ^ st.count)) + 1e-8)| ≤ 10 := by
  obtain ⟨s, h1, h2, h0⟩ := h.ex
  have ha : (0 : ℝ) < 1 - 0.9 ^ st.count := by
    have : (0.9 : ℝ) ^ st.count < 1 := pow_lt_one₀ (by norm_num) (by norm_num) hc.ne'
    linarith
  have hb : (0 : ℝ) < 1 - 0.999 ^ st.count := by
    have : (0.999 : ℝ) ^ st.count < 1 := pow_lt_one₀ (by norm_num) (by norm_num) hc.ne'
    linarith
  have hab : (1 : ℝ) - 0.999 ^ st.count ≤ 1 - 0.9 ^ st.count := by
    have : (0.9 : ℝ) ^ st.count ≤ 0.999 ^ st.count := pow_le_pow_left₀ (by norm_num) (by norm_num) _
    linarith
  generalize (1 : ℝ) - 0.9 ^ st.count = A at *
  generalize (1 : ℝ) - 0.999 ^ st.count = B at *
  have hv : 0 ≤ st.nu i := by linarith
  have key : |st.mu i / A| ≤ 10 * √(st.nu i / B) := by
    rw [show (10 : ℝ) * √(st.nu i / B) = √(100 * (st.nu i / B)) by
      rw [Real.sqrt_mul (by norm_num), show (100 : ℝ) = 10 ^ 2 by norm_num, Real.sqrt_sq (by norm_num)]]
    apply Real.abs_le_sqrt
    calc (st.mu i / A) ^ 2 = st.mu i ^ 2 / A ^ 2 := by rw [div_pow]
      _ ≤ A * s / A ^ 2 := div_le_div_of_nonneg_right h1 (sq_nonneg _)
      _ = s / A := by field_simp
      _ ≤ 100 * st.nu i / A := div_le_div_of_nonneg_right h2 ha.le
      _ ≤ 100 * st.nu i / B := div_le_div_of_nonneg_left (by positivity) hb hab
      _ = _ := by ring
  have hd : 0 < √(st.nu i / B) + 1e-8 := by positivity
  rw [abs_div, abs_of_pos hd, div_le_iff₀ hd]
  linarith [Real.sqrt_nonneg (st.nu i / B)]

private theorem count_run (o : Optimizer) (sched : ℕ → ℝ) (grad : ℕ → (P → ℝ) → P → ℝ) (p : P → ℝ) (t : ℕ) :
    (optRun o sched grad p t).count = t := by
  induction t with
  | zero => rfl
  | succ t ih => simp [optRun, optStep, ih]

/-- **C128 (one update).**  Update `t` moves no parameter by more than ten times the learning rate `sched t`, besides
the share `sched t * weight_decay` by which it shrinks. -/
theorem update_le (o : Optimizer) (sched : ℕ → ℝ) (grad : ℕ → (P → ℝ) → P → ℝ) (p : P → ℝ) (t : ℕ) (i : P) :
    |(optRun o sched grad p (t + 1)).params i - (1 - sched t * o.decay) * (optRun o sched grad p t).params i|
      ≤ 10 * |sched t| := by
  have hi := inv_run o sched grad p i (t + 1)
  have hr := ratio_le hi (by rw [count_run]; omega)
  have e : (optRun o sched grad p (t + 1)).params i - (1 - sched t * o.decay) * (optRun o sched grad p t).params i
      = -sched t * ((optRun o sched grad p (t + 1)).mu i / (1 - 0.9 ^ (optRun o sched grad p (t + 1)).count)
        / (√((optRun o sched grad p (t + 1)).nu i / (1 - 0.999 ^ (optRun o sched grad p (t + 1)).count)) + 1e-8)) := by
    simp only [optRun, optStep, count_run]
    ring
  rw [e, abs_mul, abs_neg, mul_comm]
  exact mul_le_mul_of_nonneg_right hr (abs_nonneg _)

/-- **C128 (whole run).**  Without weight decay the parameters after `n` updates are within ten times the sum of the
learning rates of where they started. -/
theorem run_le (o : Optimizer) (ho : o.decay = 0) (sched : ℕ → ℝ) (grad : ℕ → (P → ℝ) → P → ℝ) (p : P → ℝ) (n : ℕ)
    (i : P) : |(optRun o sched grad p n).params i - p i| ≤ 10 * ∑ t ∈ range n, |sched t| := by
  induction n with
  | zero => simp [optRun, adamInit]
  | succ n ih =>
    have h := update_le o sched grad p n i
    rw [ho, mul_zero, sub_zero, one_mul] at h
    rw [sum_range_succ, mul_add]
    calc _ ≤ _ := abs_sub_le _ ((optRun o sched grad p n).params i) _
      _ ≤ _ := by linarith

/-- **C128 (weight decay).**  With decay, `|sched t * weight_decay| ≤ 1` and `0 ≤ sched t`, a parameter of size at most
`10 / weight_decay` stays that small. -/
theorem run_decay_le (o : Optimizer) (ho : 0 < o.decay) (sched : ℕ → ℝ) (h0 : ∀ t, 0 ≤ sched t)
    (h1 : ∀ t, sched t * o.decay ≤ 1) (grad : ℕ → (P → ℝ) → P → ℝ) (p : P → ℝ) (i : P) (hp : |p i| ≤ 10 / o.decay)
    (n : ℕ) : |(optRun o sched grad p n).params i| ≤ 10 / o.decay := by
  induction n with
  | zero => simpa [optRun, adamInit] using hp
  | succ n ih =>
    have h := update_le o sched grad p n i
    rw [abs_of_nonneg (h0 n)] at h
    have h2 := mul_le_mul_of_nonneg_left ih (sub_nonneg.2 (h1 n))
    rw [← abs_of_nonneg (sub_nonneg.2 (h1 n)), ← abs_mul, abs_of_nonneg (sub_nonneg.2 (h1 n))] at h2
    have h3 : (1 - sched n * o.decay) * (10 / o.decay) = 10 / o.decay - 10 * sched n := by
      field_simp
    rw [h3] at h2
    have h4 := abs_sub_abs_le_abs_sub ((optRun o sched grad p (n + 1)).params i)
      ((1 - sched n * o.decay) * (optRun o sched grad p n).params i)
    linarith

/-- **C128 (first update).**  The first update moves every parameter against its gradient, by the learning rate times
`|g| / (|g| + 1e-8)`; so clipping or scaling the gradient hardly matters. -/
theorem first_update (o : Optimizer) (ho : o.decay = 0) (hc : ∀ c, o.clip = some c → 0 < c) (sched : ℕ → ℝ)
    (grad : ℕ → (P → ℝ) → P → ℝ) (p : P → ℝ) (i : P) :
    ∃ k, 0 < k ∧ k ≤ 1 ∧ (o.clip = none → k = 1) ∧
      (optRun o sched grad p 1).params i
        = p i - sched 0 * (k * grad 0 p i / (k * |grad 0 p i| + 1e-8)) := by
  obtain ⟨k, hk0, hk1, hkn, hk⟩ : ∃ k, 0 < k ∧ k ≤ 1 ∧ (o.clip = none → k = 1) ∧
      o.clipped (grad 0 p) i = k * grad 0 p i := by
    rw [Optimizer.clipped]
    cases h : o.clip with
    | none => exact ⟨1, by norm_num, le_rfl, fun _ => rfl, by simp⟩
    | some c =>
      have hs := clipGlobal_spec (hc c h) (grad 0 p)
      rcases lt_or_ge (globalNorm (grad 0 p)) c with hl | hl
      · exact ⟨1, by norm_num, le_rfl, (fun h => by cases h), by simp [hs.1 hl]⟩
      · obtain ⟨k, a, b, e⟩ := (hs.2 hl).2
        exact ⟨k, a, b, (fun h => by cases h), e i⟩
  refine ⟨k, hk0, hk1, hkn, ?_⟩
  simp only [optRun, adamInit, optStep, hk, ho]
  have e1 : ((1 - 0.9) * (k * grad 0 p i) + 0.9 * 0) / (1 - 0.9 ^ (0 + 1)) = k * grad 0 p i := by norm_num
  have e2 : ((1 - 0.999) * (k * grad 0 p i) ^ 2 + 0.999 * 0) / (1 - 0.999 ^ (0 + 1)) = (k * grad 0 p i) ^ 2 := by
    norm_num
  rw [e1, e2, Real.sqrt_sq_eq_abs, abs_mul, abs_of_pos hk0]
  ring

/-- **C128 (`updown`).**  Training with `adam` and the schedule `updown` for `total` updates keeps every parameter
within `10 * learning_rate * total` of its start; the first update, at rate zero, changes nothing if there is a
warm-up. -/
theorem updown_run_le (o : Optimizer) (ho : o.decay = 0) {lr frac : ℝ} (hlr : 0 < lr) (h0 : 0 ≤ frac) (h1 : frac ≤ 1)
    (total : ℕ) (grad : ℕ → (P → ℝ) → P → ℝ) (p : P → ℝ) (i : P) :
    |(optRun o (updown lr frac total) grad p total).params i - p i| ≤ 10 * lr * total ∧
      (0 < ⌊frac * total⌋₊ → (optRun o (updown lr frac total) grad p 1).params i = p i) := by
  refine ⟨(run_le o ho (updown lr frac total) grad p total i).trans ?_, fun hw => ?_⟩
  · have hs := (updown_schedule lr frac hlr h0 h1 total).1
    rw [mul_assoc]
    refine mul_le_mul_of_nonneg_left ?_ (by norm_num)
    calc ∑ t ∈ range total, |updown lr frac total t| ≤ ∑ _t ∈ range total, lr :=
          sum_le_sum fun t _ => by rw [abs_of_nonneg (hs t).1]; exact (hs t).2
      _ = lr * total := by simp [mul_comm]
  · have h := run_le o ho (updown lr frac total) grad p 1 i
    rw [sum_range_one, (updown_logged lr frac h0 total).1 hw, abs_zero, mul_zero] at h
    exact sub_eq_zero.1 (abs_nonpos_iff.1 h)

/-- One parameter with gradient 3 and bound 5 at a constant rate of 1: the first update moves it by
`3 / (3 + 1e-8)`. -/
example : (optRun (P := Unit) ⟨some 5, 0⟩ (fun _ => 1) (fun _ _ _ => 3) (fun _ => 0) 1).params ()
    = -(3 / (3 + 1e-8)) := by
  have hn : globalNorm (P := Unit) (fun _ => 3) = 3 := by
    simp only [globalNorm, univ_unique, sum_singleton]
    exact Real.sqrt_sq (by norm_num)
  have hg : Optimizer.clipped (P := Unit) ⟨some 5, 0⟩ (fun _ => 3) = fun _ => 3 :=
    (clipGlobal_spec (by norm_num : (0 : ℝ) < 5) _).1 (by rw [hn]; norm_num)
  simp only [optRun, optStep, adamInit, hg]
  have e2 : ((1 - 0.999) * (3 : ℝ) ^ 2 + 0.999 * 0) / (1 - 0.999 ^ (0 + 1)) = 3 ^ 2 := by norm_num
  rw [e2, Real.sqrt_sq (by norm_num)]
  norm_num

end Opt

end Discs
