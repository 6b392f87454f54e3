import Verif.Model.Float32LB
import Verif.Lemmas.NearMHLaw
import Verif.Props.Float32
import Verif.Props.GridCateg

/-!
# Property C108: locally balanced samplers in single precision

What single precision does to the samplers that compute `log_acc = ll_y + ll_y2x - ll_x - ll_x2y`.
-/

namespace Discs

open Finset Spec

/-! ## Any sampler -/

/-- Error of the computed log acceptance ratio plus that of the test: energies within `εE` and of size at most `RE`,
log-probabilities of the draws within `εL` and of size at most `RL`, logarithm of relative accuracy `ρ`. -/
noncomputable def lbErr (εE εL RE RL ρ : ℝ) : ℝ := 2 * (εE + εL) + 7 * 2⁻¹ ^ 24 * (RE + RL + εE + εL) + logErr ρ

theorem lbErr_nonneg {εE εL RE RL ρ : ℝ} (h1 : 0 ≤ εE) (h2 : 0 ≤ εL) (h3 : 0 ≤ RE) (h4 : 0 ≤ RL) (h5 : 0 ≤ ρ) :
    0 ≤ lbErr εE εL RE RL ρ := by
  unfold lbErr logErr; positivity

/-- The three additions of the log acceptance ratio. -/
theorem lbLogAccF_err {rd : ℝ → ℝ} (hrd : IsRound rd) {A B C E a b c e εE εL RE RL : ℝ} (hA : |A - a| ≤ εE)
    (hB : |B - b| ≤ εL) (hC : |C - c| ≤ εE) (hE : |E - e| ≤ εL) (ha : |a| ≤ RE) (hb : |b| ≤ RL) (hc : |c| ≤ RE)
    (he : |e| ≤ RL) :
    |lbLogAccF rd A B C E - (a + b - c - e)| ≤ 2 * (εE + εL) + 7 * 2⁻¹ ^ 24 * (RE + RL + εE + εL) := by
  set T := RE + RL + εE + εL with hT
  have a1 := abs_le.1 hA
  have b1 := abs_le.1 hB
  have c1 := abs_le.1 hC
  have e1 := abs_le.1 hE
  have a2 := abs_le.1 ha
  have b2 := abs_le.1 hb
  have c2 := abs_le.1 hc
  have e2 := abs_le.1 he
  have hu : f32u = 1 / 16777216 := by unfold f32u; norm_num
  have hT0 : 0 ≤ T := by
    have := abs_nonneg (A - a); have := abs_nonneg (B - b); have := abs_nonneg a; have := abs_nonneg b
    linarith
  have s1 : |A + B| ≤ T := by rw [abs_le]; constructor <;> linarith
  have r1 := abs_le.1 ((hrd.rel (A + B)).trans (mul_le_mul_of_nonneg_left s1 f32u_pos.le))
  set v1 := rd (A + B) with hv1
  have s2 : |v1 - C| ≤ 2.1 * T := by
    have := abs_le.1 s1
    rw [hu] at r1
    rw [abs_le]
    constructor <;> linarith [abs_nonneg (B - b), abs_nonneg b]
  have r2 := abs_le.1 ((hrd.rel (v1 - C)).trans (mul_le_mul_of_nonneg_left s2 f32u_pos.le))
  set v2 := rd (v1 - C) with hv2
  have s3 : |v2 - E| ≤ 3.3 * T := by
    have := abs_le.1 s2
    rw [hu] at r2
    rw [abs_le]
    constructor <;> linarith [abs_nonneg (A - a), abs_nonneg a]
  have r3 := abs_le.1 ((hrd.rel (v2 - E)).trans (mul_le_mul_of_nonneg_left s3 f32u_pos.le))
  show |rd (v2 - E) - _| ≤ _
  rw [hu] at r1 r2 r3
  norm_num at r1 r2 r3 ⊢
  rw [abs_le]
  constructor <;> linarith

section

variable {X Ω : Type*} {S : Finset X} {q' : X → Ω → ℝ} {move : X → Ω → X} {f F₁ F₂ : X → ℝ} {lf lr Lf Lr : X → Ω → ℝ}
  {rd lg : ℝ → ℝ} {ρ εE εL RE RL : ℝ}

theorem lbF_near (hrd : IsRound rd) (h0 : 0 ≤ ρ) (hlg : LogAcc ρ lg Real.log)
    (hc : ∀ x ∈ S, ∀ ω, q' x ω ≠ 0 → move x ω ∈ S) (h1 : ∀ x ∈ S, |F₁ x - f x| ≤ εE) (h2 : ∀ x ∈ S, |F₂ x - f x| ≤ εE)
    (hf : ∀ x ∈ S, ∀ ω, q' x ω ≠ 0 → |Lf x ω - lf x ω| ≤ εL ∧ |lf x ω| ≤ RL)
    (hr : ∀ x ∈ S, ∀ ω, q' x ω ≠ 0 → |Lr x ω - lr x ω| ≤ εL ∧ |lr x ω| ≤ RL) (hE : ∀ x ∈ S, |f x| ≤ RE) :
    NearMHStepOn S q' mhTiny (lbErr εE εL RE RL ρ) move (fun x ω => f (move x ω) + lr x ω - f x - lf x ω)
      (lbStepF rd lg F₁ F₂ Lf Lr move) := by
  have key : ∀ x ∈ S, ∀ ω, q' x ω ≠ 0 → |lbLogAccF rd (F₂ (move x ω)) (Lr x ω) (F₁ x) (Lf x ω) -
      (f (move x ω) + lr x ω - f x - lf x ω)| ≤ 2 * (εE + εL) + 7 * 2⁻¹ ^ 24 * (RE + RL + εE + εL) := by
    intro x hx ω hq
    have hy := hc x hx ω hq
    exact lbLogAccF_err hrd (h2 _ hy) (hr x hx ω hq).1 (h1 x hx) (hf x hx ω hq).1 (hE _ hy) (hr x hx ω hq).2 (hE x hx)
      (hf x hx ω hq).2
  refine ⟨fun x _ ω u _ => ?_, fun x hx ω u hq hu hu1 h => ?_, fun x hx ω u hq hu hu1 h => ?_⟩
  · classical exact ite_eq_or_eq _ _ _
  · refine if_pos ((bernoulliLogpF_near hrd h0 hlg hu hu1 _).1 ?_)
    have := abs_le.1 (key x hx ω hq)
    unfold bernoulliLogp lbErr at *
    linarith
  · refine if_neg fun hF => h ?_
    have hF' := (bernoulliLogpF_near hrd h0 hlg hu hu1 _).2 hF
    have := abs_le.1 (key x hx ω hq)
    unfold bernoulliLogp lbErr at *
    linarith

end

/-- C108 (any locally balanced sampler): a run in single precision, of a sampler whose exact log acceptance ratio is
`f y + lr - f x - lf` and whose draws have laws `q'` within `κ` of the ones `q` the ratio stands for. -/
theorem lbF_run {X : Type*} [DecidableEq X] {S : Finset X} {Ω : ℕ → Type*} [∀ t, Fintype (Ω t)] {q q' : ∀ t, X → Ω t → ℝ}
    {move : ∀ t, X → Ω t → X} {rev : ∀ t, X → Ω t → Ω t} {f : X → ℝ} {lf lr Lf Lr : ∀ t, X → Ω t → ℝ} {F₁ F₂ : ℕ → X → ℝ}
    (H : ∀ t, PathMH S (fun x => Real.exp (f x)) (q t) (move t) (rev t)
      fun x ω => f (move t x ω) + lr t x ω - f x - lf t x ω)
    {rd lg : ℝ → ℝ} (hrd : IsRound rd) {ρ : ℝ} (h0 : 0 ≤ ρ) (hlg : LogAcc ρ lg Real.log)
    (hq : ∀ t, ∀ x ∈ S, IsProb (q' t x)) (hc : ∀ t, ∀ x ∈ S, ∀ ω, q' t x ω ≠ 0 → move t x ω ∈ S) {κ : ℝ}
    (hqq : ∀ t, ∀ x ∈ S, ∑ ω, |q' t x ω - q t x ω| ≤ κ) {εE εL RE RL : ℝ} (hεE : 0 ≤ εE) (hεL : 0 ≤ εL) (hRE : 0 ≤ RE)
    (hRL : 0 ≤ RL) (h1 : ∀ t, ∀ x ∈ S, |F₁ t x - f x| ≤ εE) (h2 : ∀ t, ∀ x ∈ S, |F₂ t x - f x| ≤ εE)
    (hf : ∀ t, ∀ x ∈ S, ∀ ω, q' t x ω ≠ 0 → |Lf t x ω - lf t x ω| ≤ εL ∧ |lf t x ω| ≤ RL)
    (hr : ∀ t, ∀ x ∈ S, ∀ ω, q' t x ω ≠ 0 → |Lr t x ω - lr t x ω| ≤ εL ∧ |lr t x ω| ≤ RL) (hE : ∀ x ∈ S, |f x| ≤ RE)
    {M : ℕ} (hM : 0 < M) (n : ℕ) :
    NearlyInvariant S (fun x => Real.exp (f x))
      (iterate S (fun t => lbKernelF M rd lg (q' t) (F₁ t) (F₂ t) (Lf t) (Lr t) (move t)) n)
      (n * (2 * ((Real.exp (lbErr εE εL RE RL ρ) - 1) + mhTiny + 1 / M) + κ)) :=
  PathMH.near_run_law H hq hc hqq mhTiny_pos (lbErr_nonneg hεE hεL hRE hRL h0)
    (fun t => lbF_near hrd h0 hlg (hc t) (h1 t) (h2 t) (hf t) (hr t) hE) hM n

/-- C108 (any locally balanced sampler that can reach every state in one draw): the errors do not accumulate. -/
theorem lbF_converges {X : Type*} [DecidableEq X] {S : Finset X} {Ω : ℕ → Type*} [∀ t, Fintype (Ω t)]
    {q q' : ∀ t, X → Ω t → ℝ}
    {move : ∀ t, X → Ω t → X} {rev : ∀ t, X → Ω t → Ω t} {f : X → ℝ} {lf lr Lf Lr : ∀ t, X → Ω t → ℝ} {F₁ F₂ : ℕ → X → ℝ}
    (H : ∀ t, PathMH S (fun x => Real.exp (f x)) (q t) (move t) (rev t)
      fun x ω => f (move t x ω) + lr t x ω - f x - lf t x ω)
    {rd lg : ℝ → ℝ} (hrd : IsRound rd) {ρ : ℝ} (h0 : 0 ≤ ρ) (hlg : LogAcc ρ lg Real.log)
    (hq : ∀ t, ∀ x ∈ S, IsProb (q' t x)) (hc : ∀ t, ∀ x ∈ S, ∀ ω, q' t x ω ≠ 0 → move t x ω ∈ S) {κ : ℝ} (hκ : 0 ≤ κ)
    (hqq : ∀ t, ∀ x ∈ S, ∑ ω, |q' t x ω - q t x ω| ≤ κ) {εE εL RE RL : ℝ} (hεE : 0 ≤ εE) (hεL : 0 ≤ εL) (hRE : 0 ≤ RE)
    (hRL : 0 ≤ RL) (h1 : ∀ t, ∀ x ∈ S, |F₁ t x - f x| ≤ εE) (h2 : ∀ t, ∀ x ∈ S, |F₂ t x - f x| ≤ εE)
    (hf : ∀ t, ∀ x ∈ S, ∀ ω, q' t x ω ≠ 0 → |Lf t x ω - lf t x ω| ≤ εL ∧ |lf t x ω| ≤ RL)
    (hr : ∀ t, ∀ x ∈ S, ∀ ω, q' t x ω ≠ 0 → |Lr t x ω - lr t x ω| ≤ εL ∧ |lr t x ω| ≤ RL) (hE : ∀ x ∈ S, |f x| ≤ RE)
    {M : ℕ} (hM : 0 < M) {a : ℝ} (ha : 0 < a) (ha1 : a ≤ 1)
    (hreach : ∀ t, ∀ x ∈ S, ∀ y ∈ S, ∃ ω, move t x ω = y ∧ a ≤ q t x ω ∧ a ≤ q t y (rev t x ω)) :
    ConvergesWithin S (fun x => Real.exp (f x))
      (fun t => lbKernelF M rd lg (q' t) (F₁ t) (F₂ t) (Lf t) (Lr t) (move t)) 1 (1 - a)
      ((2 * ((Real.exp (lbErr εE εL RE RL ρ) - 1) + mhTiny + 1 / M) + κ) / a) :=
  PathMH.near_converges_law H hq hc hκ hqq mhTiny_pos (lbErr_nonneg hεE hεL hRE hRL h0)
    (fun t => lbF_near hrd h0 hlg (hc t) (h1 t) (h2 t) (hf t) (hr t) hE) hM ha ha1 hreach

end Discs
