import Mathlib.MeasureTheory.Measure.Lebesgue.Basic

/-!
# Specification vocabulary: finite Markov kernels and laws of random programs

Nothing in this file refers to the modelled code.  It fixes what "the sampler preserves the target"
means: a kernel `K x y` on a finite set `S` of states, an unnormalised target `π`, and the textbook
notions of reversibility (detailed balance), stochasticity and invariance.
-/

namespace Discs.Spec

open Finset MeasureTheory

variable {X Ω : Type*}

/-- Detailed balance of the kernel `K` with respect to the (unnormalised) weights `π` on `S`. -/
def Reversible (S : Finset X) (π : X → ℝ) (K : X → X → ℝ) : Prop :=
  ∀ x ∈ S, ∀ y ∈ S, π x * K x y = π y * K y x

/-- On `S`, every row of `K` is a probability distribution concentrated on `S`. -/
def Stochastic (S : Finset X) (K : X → X → ℝ) : Prop :=
  (∀ x ∈ S, ∀ y, 0 ≤ K x y) ∧ (∀ x ∈ S, ∑ y ∈ S, K x y = 1) ∧ ∀ x ∈ S, ∀ y, y ∉ S → K x y = 0

/-- `π` is an invariant (stationary) measure of `K` on `S`. -/
def Invariant (S : Finset X) (π : X → ℝ) (K : X → X → ℝ) : Prop :=
  ∀ y ∈ S, ∑ x ∈ S, π x * K x y = π y

/-- One application of `K` moves `π` by at most a fraction `ε` of its mass in `L¹` distance. -/
def NearlyInvariant (S : Finset X) (π : X → ℝ) (K : X → X → ℝ) (ε : ℝ) : Prop :=
  ∑ y ∈ S, |∑ x ∈ S, π x * K x y - π y| ≤ ε * ∑ x ∈ S, π x

/-- Two-step kernel: first `K`, then `L`. -/
def comp (S : Finset X) (K L : X → X → ℝ) (x y : X) : ℝ := ∑ z ∈ S, K x z * L z y

/-- Kernel of running `K 0`, `K 1`, …, `K (n-1)` one after the other. -/
def iterate [DecidableEq X] (S : Finset X) (K : ℕ → X → X → ℝ) : ℕ → X → X → ℝ
  | 0 => fun x y => if x = y then 1 else 0
  | n + 1 => comp S (iterate S K n) (K n)

/-- Probability that `f ω = y` when `ω` has probability `p ω`. -/
def law [Fintype Ω] [DecidableEq X] (p : Ω → ℝ) (f : Ω → X) (y : X) : ℝ :=
  ∑ ω, if f ω = y then p ω else 0

/-- Probability that `f ω u = y` when `ω` has probability `p ω` and, independently, `u` is uniform
on `[0, 1)`. -/
noncomputable def lawU [Fintype Ω] (p : Ω → ℝ) (f : Ω → ℝ → X) (y : X) : ℝ :=
  ∑ ω, p ω * (volume {u : ℝ | u ∈ Set.Ico (0 : ℝ) 1 ∧ f ω u = y}).toReal

/-- `p` is a probability distribution on the finite type `Ω`. -/
def IsProb [Fintype Ω] (p : Ω → ℝ) : Prop := (∀ ω, 0 ≤ p ω) ∧ ∑ ω, p ω = 1

/-- The samples an experiment may hold: `D` sites with values in `{0, …, C-1}`. -/
noncomputable def validStates (C D : ℕ) : Finset (Fin D → ℤ) :=
  Fintype.piFinset fun _ => Finset.Ico (0 : ℤ) C

end Discs.Spec
