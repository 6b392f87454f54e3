import Verif.Lemmas.Adaptive
import Verif.Props.AdaptiveRW
import Mathlib.Analysis.Calculus.Deriv.Pow
import Mathlib.Analysis.Calculus.Deriv.Add
import Mathlib.Analysis.Calculus.Deriv.Mul

/-!
# Adaptive samplers on a model that looks at one site

On `siteModel` a sampler whose proposals do not depend on the sample is described by two numbers: the
radius (or step size, or whatever its state adapts) and the value of the site.
-/

namespace Discs

open Finset Spec

/-- Probability that the site is 1 after `n` steps.  `P r` is the probability that a proposal at radius `r`
flips the site, `next r a` the radius after a step with acceptance ratio `a`, `b` and `c` the probabilities of
accepting a flip from 1 to 0 and from 0 to 1. -/
def siteRun {R : Type*} (ρ b c : ℝ) (P : R → ℝ) (next : R → ℝ → R) : ℕ → R → Bool → ℝ
  | 0, _, v => if v then 1 else 0
  | n + 1, r, true => P r * (b * siteRun ρ b c P next n (next r ρ) false +
      (1 - b) * siteRun ρ b c P next n (next r ρ) true) + (1 - P r) * siteRun ρ b c P next n (next r 1) true
  | n + 1, r, false => P r * (c * siteRun ρ b c P next n (next r 1) true +
      (1 - c) * siteRun ρ b c P next n (next r 1) false) + (1 - P r) * siteRun ρ b c P next n (next r 1) false

variable {D : ℕ} {R St : Type*} {Ω : St → Type*} [∀ s, Fintype (Ω s)]

/-- One step of the two-number process followed by `V`. -/
def siteStep {R : Type*} (ρ b c : ℝ) (P : R → ℝ) (next : R → ℝ → R) (V : R → Bool → ℝ) (r : R) : Bool → ℝ
  | true => P r * (b * V (next r ρ) false + (1 - b) * V (next r ρ) true) + (1 - P r) * V (next r 1) true
  | false => P r * (c * V (next r 1) true + (1 - c) * V (next r 1) false) + (1 - P r) * V (next r 1) false

/-- A sampler on a model `f` whose proposals do not depend on the sample: what its step does to site `i` and
to the number `rad` of its state. -/
structure SiteSampler (tiny : ℝ) (f : (Fin D → ℤ) → ℝ) (i : Fin D) (p : ∀ s, (Fin D → ℤ) → Ω s → ℝ)
    (step : ∀ s, (Fin D → ℤ) → Ω s → ℝ → (Fin D → ℤ) × St) (rad : St → R) (flip : ∀ s, Ω s → Bool)
    (P : R → ℝ) (next : R → ℝ → R) (m : ∀ s, (Fin D → ℤ) → Ω s → Fin D → ℤ) : Prop where
  law : ∀ s, ∀ x ∈ validStates 2 D, ∀ G : Bool → ℝ, ∑ ω, p s x ω * G (flip s ω) =
    P (rad s) * G true + (1 - P (rad s)) * G false
  valid : ∀ s, ∀ x ∈ validStates 2 D, ∀ ω, m s x ω ∈ validStates 2 D
  site : ∀ s, ∀ x ∈ validStates 2 D, ∀ ω, m s x ω i = if flip s ω then 1 - x i else x i
  acc : ∀ s, ∀ x ∈ validStates 2 D, ∀ ω u, bernoulliLogp tiny u (f (m s x ω) - f x) → (step s x ω u).1 = m s x ω
  rej : ∀ s, ∀ x ∈ validStates 2 D, ∀ ω u, ¬ bernoulliLogp tiny u (f (m s x ω) - f x) → (step s x ω u).1 = x
  next_rad : ∀ s, ∀ x ∈ validStates 2 D, ∀ ω u, rad (step s x ω u).2 =
    next (rad s) (Real.exp (clipMax (f (m s x ω) - f x) 0))

/-- One step on a model whose values differ as those of `siteModel`. -/
theorem SiteSampler.step_site {tiny : ℝ} (ht : 0 ≤ tiny) {ρ : ℝ} (h0 : 0 < ρ) (h1 : ρ ≤ 1) {i : Fin D}
    {f : (Fin D → ℤ) → ℝ} {p : ∀ s, (Fin D → ℤ) → Ω s → ℝ}
    {step : ∀ s, (Fin D → ℤ) → Ω s → ℝ → (Fin D → ℤ) × St}
    {rad : St → R} {flip : ∀ s, Ω s → Bool} {P : R → ℝ} {next : R → ℝ → R}
    {m : ∀ s, (Fin D → ℤ) → Ω s → Fin D → ℤ} (H : SiteSampler tiny f i p step rad flip P next m)
    (hf : ∀ x y, f y - f x = siteModel ρ i y - siteModel ρ i x)
    {V : R → Bool → ℝ} {G : St → (Fin D → ℤ) → ℝ}
    (hG : ∀ s, ∀ y ∈ validStates 2 D, G s y = V (rad s) (decide (y i = 1))) (s : St) {x : Fin D → ℤ}
    (hx : x ∈ validStates 2 D) :
    (∑ ω, p s x ω * ∫ u in Set.Ico (0 : ℝ) 1, G (step s x ω u).2 (step s x ω u).1) =
      siteStep ρ (acceptProb tiny (Real.log ρ)) (acceptProb tiny (-Real.log ρ)) P next V (rad s)
        (decide (x i = 1)) := by
  have hlog : Real.log ρ ≤ 0 := Real.log_nonpos h0.le h1
  rw [sum_step_valid (step := step) (s := s) (x := x) (p := p s x) ht (S := validStates 2 D) (m := m s x)
    (l := fun ω => f (m s x ω) - f x)
    (F := fun ω y => V (next (rad s) (Real.exp (clipMax (f (m s x ω) - f x) 0))) (decide (y i = 1)))
    (H.acc s x hx) (H.rej s x hx) hx (H.valid s x hx)
    (fun ω u y hy => by rw [hG _ y hy, H.next_rad s x hx])]
  simp only [hf]
  set b := acceptProb tiny (Real.log ρ) with hb
  set c := acceptProb tiny (-Real.log ρ) with hc
  rcases valid_two hx i with h | h
  · rw [Finset.sum_congr rfl (g := fun ω => p s x ω * (fun e : Bool => if e then
      c * V (next (rad s) 1) true + (1 - c) * V (next (rad s) 1) false else V (next (rad s) 1) false)
        (flip s ω)), H.law s x hx (fun e : Bool => if e then
      c * V (next (rad s) 1) true + (1 - c) * V (next (rad s) 1) false else V (next (rad s) 1) false)]
    · rw [decide_eq_false (by rw [h]; norm_num)]; rfl
    · intro ω _
      congr 1
      unfold siteModel
      simp only [H.site s x hx, h]
      cases flip s ω
      · simp [clipMax]; ring
      · have : min (-Real.log ρ) 0 = 0 := min_eq_right (by linarith)
        simp [clipMax, this, c]
  · rw [Finset.sum_congr rfl (g := fun ω => p s x ω * (fun e : Bool => if e then
      b * V (next (rad s) ρ) false + (1 - b) * V (next (rad s) ρ) true else V (next (rad s) 1) true)
        (flip s ω)), H.law s x hx (fun e : Bool => if e then
      b * V (next (rad s) ρ) false + (1 - b) * V (next (rad s) ρ) true else V (next (rad s) 1) true)]
    · rw [decide_eq_true h]; rfl
    · intro ω _
      congr 1
      unfold siteModel
      simp only [H.site s x hx, h]
      cases flip s ω
      · simp [clipMax]; ring
      · have : min (Real.log ρ) 0 = Real.log ρ := min_eq_left hlog
        simp [clipMax, this, Real.exp_log h0, b]

/-- The sampler on `siteModel` is the two-number process. -/
theorem adaptiveExpect_site {tiny : ℝ} (ht : 0 ≤ tiny) {ρ : ℝ} (h0 : 0 < ρ) (h1 : ρ ≤ 1) {i : Fin D}
    {p : ∀ s, (Fin D → ℤ) → Ω s → ℝ} {step : ∀ s, (Fin D → ℤ) → Ω s → ℝ → (Fin D → ℤ) × St}
    {rad : St → R} {flip : ∀ s, Ω s → Bool} {P : R → ℝ} {next : R → ℝ → R}
    {m : ∀ s, (Fin D → ℤ) → Ω s → Fin D → ℤ}
    (H : SiteSampler tiny (siteModel ρ i) i p step rad flip P next m) :
    ∀ (n : ℕ) (s : St), ∀ x ∈ validStates 2 D,
      adaptiveExpect p step (fun x => if x i = 1 then 1 else 0) n s x =
        siteRun ρ (acceptProb tiny (Real.log ρ)) (acceptProb tiny (-Real.log ρ)) P next n (rad s)
          (decide (x i = 1)) := by
  intro n
  induction n with
  | zero => intro s x _; simp [adaptiveExpect, siteRun]
  | succ n ih =>
    intro s x hx
    rw [adaptiveExpect, H.step_site ht h0 h1 (fun _ _ => rfl) ih s hx]
    cases decide (x i = 1) <;> rfl

/-- A sampler that keeps the target on `siteModel` keeps the weight of the likelier half of the two-number
process. -/
theorem siteRun_of_keeps {tiny : ℝ} {ρ : ℝ} (h0 : 0 < ρ) (i : Fin D)
    {p : ∀ s, (Fin D → ℤ) → Ω s → ℝ} {step : ∀ s, (Fin D → ℤ) → Ω s → ℝ → (Fin D → ℤ) × St}
    {rad : St → R} {P : R → ℝ} {next : R → ℝ → R} {s₀ : St} {n : ℕ}
    (hV : ∀ x ∈ validStates 2 D, adaptiveExpect p step (fun x => if x i = 1 then 1 else 0) n s₀ x =
        siteRun ρ (acceptProb tiny (Real.log ρ)) (acceptProb tiny (-Real.log ρ)) P next n (rad s₀)
          (decide (x i = 1)))
    (hk : KeepsTarget (validStates 2 D) (fun x => Real.exp (siteModel ρ i x)) p step s₀) :
    siteRun ρ (acceptProb tiny (Real.log ρ)) (acceptProb tiny (-Real.log ρ)) P next n (rad s₀) true +
      ρ * siteRun ρ (acceptProb tiny (Real.log ρ)) (acceptProb tiny (-Real.log ρ)) P next n (rad s₀) false
      = 1 := by
  have hk2 := hk (fun x => if x i = 1 then 1 else 0) n
  have hV' : ∀ x ∈ validStates 2 D, adaptiveExpect p step (fun x => if x i = 1 then 1 else 0) n s₀ x =
      if x i = 1 then siteRun ρ (acceptProb tiny (Real.log ρ)) (acceptProb tiny (-Real.log ρ)) P next n
        (rad s₀) true
      else siteRun ρ (acceptProb tiny (Real.log ρ)) (acceptProb tiny (-Real.log ρ)) P next n (rad s₀) false := by
    intro x hx
    rw [hV x hx]
    by_cases h : x i = 1
    · rw [if_pos h, decide_eq_true h]
    · rw [if_neg h, decide_eq_false h]
  rw [sum_siteModel h0 i _ _ _ hV', sum_siteModel h0 i _ 1 0 fun x hx => rfl] at hk2
  have hN : (0 : ℝ) < ((validStates 2 D).filter fun x => x i = 1).card := by
    rw [Nat.cast_pos, Finset.card_pos]
    exact ⟨fun _ => 1, by rw [Finset.mem_filter, mem_validStates]; exact ⟨fun j => by simp, rfl⟩⟩
  have := mul_left_cancel₀ hN.ne' hk2
  linarith

/-- `siteModel` is smooth: a polynomial in the site with these values, whose derivative is zero at both of
them, so a gradient-based sampler sees the gradient zero at every sample. -/
theorem siteModel_smooth (ρ : ℝ) : ∃ F F' : ℝ → ℝ, (∀ v, HasDerivAt F (F' v) v) ∧ F 1 = 0 ∧
    F 0 = Real.log ρ ∧ F' 0 = 0 ∧ F' 1 = 0 := by
  refine ⟨fun v => Real.log ρ * (1 - 3 * v ^ 2 + 2 * v ^ 3), fun v => Real.log ρ * (-6 * v + 6 * v ^ 2),
    fun v => ?_, by norm_num, by norm_num, by norm_num, by norm_num⟩
  have h1 := ((hasDerivAt_pow 2 v).const_mul 3).const_sub 1
  have h2 := (hasDerivAt_pow 3 v).const_mul 2
  have h3 := (h1.add h2).const_mul (Real.log ρ)
  exact h3.congr_deriv (by push_cast; ring)

end Discs
