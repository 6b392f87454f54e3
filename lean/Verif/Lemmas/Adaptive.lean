import Verif.Spec.Adaptive
import Verif.Lemmas.MH
import Verif.Lemmas.Markov

/-!
# Lemmas about samplers whose state changes with the run
-/

namespace Discs

open Finset Spec MeasureTheory

open Classical in
theorem integral_accept {tiny : ℝ} (h0 : 0 ≤ tiny) (l A B : ℝ) :
    ∫ u in Set.Ico (0 : ℝ) 1, (if bernoulliLogp tiny u l then A else B) =
      acceptProb tiny l * A + (1 - acceptProb tiny l) * B := by
  set E : Set ℝ := {u : ℝ | u ∈ Set.Ico (0 : ℝ) 1 ∧ bernoulliLogp tiny u l} with hE
  have hEm : MeasurableSet E := measurable_accept tiny l
  have hfun : ∀ u ∈ Set.Ico (0 : ℝ) 1, (if bernoulliLogp tiny u l then A else B) =
      B + E.indicator (fun _ => A - B) u := by
    intro u hu
    by_cases hb : bernoulliLogp tiny u l
    · rw [if_pos hb, Set.indicator_of_mem (show u ∈ E from ⟨hu, hb⟩)]; ring
    · rw [if_neg hb, Set.indicator_of_notMem (fun h => hb h.2)]; ring
  have hfin : volume (Set.Ico (0 : ℝ) 1) ≠ ⊤ := by rw [Real.volume_Ico]; exact ENNReal.ofReal_ne_top
  rw [setIntegral_congr_fun measurableSet_Ico hfun, integral_add, setIntegral_indicator hEm]
  · have hinter : Set.Ico (0 : ℝ) 1 ∩ E = E := Set.inter_eq_right.2 fun u hu => hu.1
    rw [hinter, setIntegral_const, setIntegral_const]
    have h1 : volume.real E = acceptProb tiny l := volume_accept h0 l
    have h2 : volume.real (Set.Ico (0 : ℝ) 1) = 1 := volume_unit
    rw [h1, h2]
    simp only [smul_eq_mul]
    ring
  · exact integrableOn_const hfin
  · exact (integrableOn_const hfin).indicator hEm

variable {X St : Type*} {Ω : St → Type*} [∀ s, Fintype (Ω s)]

/-- One step of a Metropolis-Hastings sampler whose next state does not depend on the acceptance noise
as far as the continuation `G` can tell. -/
theorem adaptiveExpect_succ {tiny : ℝ} (h0 : 0 ≤ tiny) {p : ∀ s, X → Ω s → ℝ}
    {step : ∀ s, X → Ω s → ℝ → X × St} {φ : X → ℝ} {n : ℕ} {s : St} {x : X} {m : Ω s → X} {l : Ω s → ℝ}
    {F : Ω s → X → ℝ} (hacc : ∀ ω u, bernoulliLogp tiny u (l ω) → (step s x ω u).1 = m ω)
    (hrej : ∀ ω u, ¬ bernoulliLogp tiny u (l ω) → (step s x ω u).1 = x)
    (hF : ∀ ω u, ∀ y, adaptiveExpect p step φ n (step s x ω u).2 y = F ω y) :
    adaptiveExpect p step φ (n + 1) s x = ∑ ω, p s x ω *
      (acceptProb tiny (l ω) * F ω (m ω) + (1 - acceptProb tiny (l ω)) * F ω x) := by
  classical
  rw [adaptiveExpect]
  refine Finset.sum_congr rfl fun ω _ => ?_
  rw [← integral_accept h0]
  congr 1
  refine setIntegral_congr_fun measurableSet_Ico fun u _ => ?_
  rw [hF]
  by_cases hb : bernoulliLogp tiny u (l ω)
  · rw [hacc ω u hb, if_pos hb]
  · rw [hrej ω u hb, if_neg hb]

/-- One step when the continuation is only known on a set of samples that the step does not leave. -/
theorem sum_step_valid {tiny : ℝ} (h0 : 0 ≤ tiny) {s : St} {p : Ω s → ℝ}
    {step : ∀ s, X → Ω s → ℝ → X × St} {G : St → X → ℝ} {x : X} {m : Ω s → X} {l : Ω s → ℝ}
    {F : Ω s → X → ℝ} {S : Finset X} (hacc : ∀ ω u, bernoulliLogp tiny u (l ω) → (step s x ω u).1 = m ω)
    (hrej : ∀ ω u, ¬ bernoulliLogp tiny u (l ω) → (step s x ω u).1 = x) (hx : x ∈ S) (hm : ∀ ω, m ω ∈ S)
    (hF : ∀ ω u, ∀ y ∈ S, G (step s x ω u).2 y = F ω y) :
    (∑ ω, p ω * ∫ u in Set.Ico (0 : ℝ) 1, G (step s x ω u).2 (step s x ω u).1) = ∑ ω, p ω *
      (acceptProb tiny (l ω) * F ω (m ω) + (1 - acceptProb tiny (l ω)) * F ω x) := by
  classical
  refine Finset.sum_congr rfl fun ω _ => ?_
  rw [← integral_accept h0]
  congr 1
  refine setIntegral_congr_fun measurableSet_Ico fun u _ => ?_
  by_cases hb : bernoulliLogp tiny u (l ω)
  · simp only [hacc ω u hb, if_pos hb, hF ω u _ (hm ω)]
  · simp only [hrej ω u hb, if_neg hb, hF ω u _ hx]

/-- The same when the continuation is only known on a set of samples that the step does not leave. -/
theorem adaptiveExpect_succ_valid {tiny : ℝ} (h0 : 0 ≤ tiny) {p : ∀ s, X → Ω s → ℝ}
    {step : ∀ s, X → Ω s → ℝ → X × St} {φ : X → ℝ} {n : ℕ} {s : St} {x : X} {m : Ω s → X} {l : Ω s → ℝ}
    {F : Ω s → X → ℝ} {S : Finset X} (hacc : ∀ ω u, bernoulliLogp tiny u (l ω) → (step s x ω u).1 = m ω)
    (hrej : ∀ ω u, ¬ bernoulliLogp tiny u (l ω) → (step s x ω u).1 = x) (hx : x ∈ S) (hm : ∀ ω, m ω ∈ S)
    (hF : ∀ ω u, ∀ y ∈ S, adaptiveExpect p step φ n (step s x ω u).2 y = F ω y) :
    adaptiveExpect p step φ (n + 1) s x = ∑ ω, p s x ω *
      (acceptProb tiny (l ω) * F ω (m ω) + (1 - acceptProb tiny (l ω)) * F ω x) := by
  rw [adaptiveExpect]
  exact sum_step_valid (p := p s x) h0 hacc hrej hx hm hF

end Discs
