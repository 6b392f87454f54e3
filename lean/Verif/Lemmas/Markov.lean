import Verif.Spec.Markov
import Mathlib.Analysis.SpecialFunctions.Log.Basic

/-! # Helper lemmas on finite kernels -/

namespace Discs.Spec

open Finset MeasureTheory

variable {X Ω : Type*}

theorem invariant_of_reversible {S : Finset X} {π : X → ℝ} {K : X → X → ℝ}
    (hr : Reversible S π K) (hs : Stochastic S K) : Invariant S π K := by
  intro y hy
  calc ∑ x ∈ S, π x * K x y = ∑ x ∈ S, π y * K y x :=
        Finset.sum_congr rfl fun x hx => hr x hx y hy
    _ = π y := by rw [← Finset.mul_sum, hs.2.1 y hy, mul_one]

theorem stochastic_comp {S : Finset X} {K L : X → X → ℝ}
    (hK : Stochastic S K) (hL : Stochastic S L) : Stochastic S (comp S K L) := by
  refine ⟨fun x hx y => Finset.sum_nonneg fun z hz => mul_nonneg (hK.1 x hx z) (hL.1 z hz y), ?_, ?_⟩
  · intro x hx
    unfold comp
    rw [Finset.sum_comm]
    calc ∑ z ∈ S, ∑ y ∈ S, K x z * L z y = ∑ z ∈ S, K x z :=
          Finset.sum_congr rfl fun z hz => by rw [← Finset.mul_sum, hL.2.1 z hz, mul_one]
      _ = 1 := hK.2.1 x hx
  · intro x hx y hy
    exact Finset.sum_eq_zero fun z hz => by rw [hL.2.2 z hz y hy, mul_zero]

theorem invariant_comp {S : Finset X} {π : X → ℝ} {K L : X → X → ℝ}
    (hK : Invariant S π K) (hL : Invariant S π L) : Invariant S π (comp S K L) := by
  intro y hy
  calc ∑ x ∈ S, π x * comp S K L x y = ∑ x ∈ S, ∑ z ∈ S, π x * K x z * L z y := by
        refine Finset.sum_congr rfl fun x _ => ?_
        unfold comp
        rw [Finset.mul_sum]
        exact Finset.sum_congr rfl fun z _ => by ring
    _ = ∑ z ∈ S, (∑ x ∈ S, π x * K x z) * L z y := by
        rw [Finset.sum_comm]
        exact Finset.sum_congr rfl fun z _ => by rw [Finset.sum_mul]
    _ = ∑ z ∈ S, π z * L z y := Finset.sum_congr rfl fun z hz => by rw [hK z hz]
    _ = π y := hL y hy

theorem invariant_iterate [DecidableEq X] {S : Finset X} {π : X → ℝ} {K : ℕ → X → X → ℝ}
    (h : ∀ t, Invariant S π (K t)) (n : ℕ) : Invariant S π (iterate S K n) := by
  induction n with
  | zero =>
    intro y hy
    simp [iterate, hy]
  | succ n ih => exact invariant_comp ih (h n)

theorem stochastic_iterate [DecidableEq X] {S : Finset X} {K : ℕ → X → X → ℝ}
    (h : ∀ t, Stochastic S (K t)) (n : ℕ) : Stochastic S (iterate S K n) := by
  induction n with
  | zero =>
    refine ⟨fun x _ y => ?_, fun x hx => ?_, fun x hx y hy => ?_⟩
    · simp only [iterate]; split_ifs <;> norm_num
    · simp [iterate, hx]
    · simp only [iterate]; rw [if_neg]; rintro rfl; exact hy hx
  | succ n ih => exact stochastic_comp ih (h n)

/-- Drifts of consecutive steps add up. -/
theorem nearlyInvariant_comp {S : Finset X} {π : X → ℝ} {K L : X → X → ℝ} {a b : ℝ}
    (hL : Stochastic S L)
    (ha : NearlyInvariant S π K a) (hb : NearlyInvariant S π L b) :
    NearlyInvariant S π (comp S K L) (a + b) := by
  unfold NearlyInvariant at *
  have key : ∀ y, ∑ x ∈ S, π x * comp S K L x y = ∑ z ∈ S, (∑ x ∈ S, π x * K x z) * L z y := by
    intro y
    calc ∑ x ∈ S, π x * comp S K L x y = ∑ x ∈ S, ∑ z ∈ S, π x * K x z * L z y := by
          refine Finset.sum_congr rfl fun x _ => ?_
          unfold comp
          rw [Finset.mul_sum]
          exact Finset.sum_congr rfl fun z _ => by ring
      _ = _ := by
          rw [Finset.sum_comm]
          exact Finset.sum_congr rfl fun z _ => by rw [Finset.sum_mul]
  have step : ∀ y ∈ S, |∑ x ∈ S, π x * comp S K L x y - π y| ≤
      ∑ z ∈ S, |∑ x ∈ S, π x * K x z - π z| * L z y + |∑ z ∈ S, π z * L z y - π y| := by
    intro y _
    rw [key]
    have : ∑ z ∈ S, (∑ x ∈ S, π x * K x z) * L z y - π y =
        ∑ z ∈ S, (∑ x ∈ S, π x * K x z - π z) * L z y + (∑ z ∈ S, π z * L z y - π y) := by
      simp only [sub_mul, Finset.sum_sub_distrib]; ring
    rw [this]
    refine (abs_add_le _ _).trans (add_le_add ?_ le_rfl)
    refine (Finset.abs_sum_le_sum_abs _ _).trans (Finset.sum_le_sum fun z hz => ?_)
    rw [abs_mul, abs_of_nonneg (hL.1 z hz y)]
  calc ∑ y ∈ S, |∑ x ∈ S, π x * comp S K L x y - π y|
      ≤ ∑ y ∈ S, (∑ z ∈ S, |∑ x ∈ S, π x * K x z - π z| * L z y + |∑ z ∈ S, π z * L z y - π y|) :=
        Finset.sum_le_sum step
    _ = ∑ z ∈ S, |∑ x ∈ S, π x * K x z - π z| + ∑ y ∈ S, |∑ z ∈ S, π z * L z y - π y| := by
        rw [Finset.sum_add_distrib, Finset.sum_comm]
        congr 1
        exact Finset.sum_congr rfl fun z hz => by rw [← Finset.mul_sum, hL.2.1 z hz, mul_one]
    _ ≤ a * ∑ x ∈ S, π x + b * ∑ x ∈ S, π x := add_le_add ha hb
    _ = (a + b) * ∑ x ∈ S, π x := by ring

theorem nearlyInvariant_iterate [DecidableEq X] {S : Finset X} {π : X → ℝ} {K : ℕ → X → X → ℝ}
    {ε : ℝ} (hs : ∀ t, Stochastic S (K t)) (h : ∀ t, NearlyInvariant S π (K t) ε) (n : ℕ) :
    NearlyInvariant S π (iterate S K n) (n * ε) := by
  induction n with
  | zero =>
    unfold NearlyInvariant
    have : ∀ y ∈ S, |∑ x ∈ S, π x * iterate S K 0 x y - π y| = 0 := by
      intro y hy; simp [iterate, hy]
    rw [Finset.sum_congr rfl this]; simp
  | succ n ih =>
    have := nearlyInvariant_comp (hs n) ih (h n)
    simpa [iterate, add_mul, Nat.cast_succ] using this

theorem nearlyInvariant_zero_iff {S : Finset X} {π : X → ℝ} {K : X → X → ℝ} :
    NearlyInvariant S π K 0 ↔ Invariant S π K := by
  unfold NearlyInvariant Invariant
  rw [zero_mul]
  constructor
  · intro h y hy
    have h0 : ∑ y ∈ S, |∑ x ∈ S, π x * K x y - π y| = 0 :=
      le_antisymm h (Finset.sum_nonneg fun _ _ => abs_nonneg _)
    have := (Finset.sum_eq_zero_iff_of_nonneg (fun _ _ => abs_nonneg _)).1 h0 y hy
    linarith [abs_eq_zero.1 this]
  · intro h
    refine le_of_eq (Finset.sum_eq_zero fun y hy => ?_)
    rw [h y hy, sub_self, abs_zero]

theorem law_nonneg [Fintype Ω] [DecidableEq X] {p : Ω → ℝ} (hp : ∀ ω, 0 ≤ p ω) (f : Ω → X) (y : X) :
    0 ≤ law p f y := Finset.sum_nonneg fun ω _ => by split_ifs; exacts [hp ω, le_rfl]

theorem sum_law [Fintype Ω] [DecidableEq X] {p : Ω → ℝ} {f : Ω → X} {S : Finset X}
    (hf : ∀ ω, f ω ∈ S) : ∑ y ∈ S, law p f y = ∑ ω, p ω := by
  unfold law
  rw [Finset.sum_comm]
  refine Finset.sum_congr rfl fun ω _ => ?_
  rw [Finset.sum_ite_eq]; simp [hf]

theorem law_eq_zero [Fintype Ω] [DecidableEq X] {p : Ω → ℝ} {f : Ω → X} {y : X}
    (h : ∀ ω, f ω ≠ y) : law p f y = 0 :=
  Finset.sum_eq_zero fun ω _ => if_neg (h ω)

/-- A kernel given as the law of a draw that always lands in `S` is stochastic on `S`. -/
theorem stochastic_law [Fintype Ω] [DecidableEq X] {S : Finset X} {p : X → Ω → ℝ} {f : X → Ω → X}
    (hp : ∀ x ∈ S, IsProb (p x)) (hf : ∀ x ∈ S, ∀ ω, f x ω ∈ S) :
    Stochastic S fun x y => law (p x) (f x) y := by
  refine ⟨fun x hx y => law_nonneg (hp x hx).1 _ _, fun x hx => ?_, fun x hx y hy => ?_⟩
  · rw [sum_law (hf x hx)]; exact (hp x hx).2
  · exact law_eq_zero fun ω h => hy (h ▸ hf x hx ω)

/-- Conditional ("Gibbs") resampling.  If the multiset of candidates seen from `x` is the one seen
from any candidate, and the draw is proportional to the target weight, the kernel is reversible. -/
theorem reversible_of_fiber [Fintype Ω] [DecidableEq X] {S : Finset X} {w : X → ℝ}
    (move : X → Ω → X)
    (hfib : ∀ x ∈ S, ∀ ω₀, move x ω₀ ∈ S → ∀ F : X → ℝ, ∑ ω, F (move x ω) = ∑ ω, F (move (move x ω₀) ω))
    (hdiag : ∀ x ∈ S, ∀ ω₀, move x ω₀ ∈ S →
      ∑ ω, (if move x ω = x then (1 : ℝ) else 0) =
        ∑ ω, if move (move x ω₀) ω = move x ω₀ then (1 : ℝ) else 0) :
    Reversible S w fun x y => law (fun ω => w (move x ω) / ∑ ω', w (move x ω')) (move x) y := by
  have hlaw : ∀ x y, law (fun ω => w (move x ω) / ∑ ω', w (move x ω')) (move x) y =
      (∑ ω, if move x ω = y then (1 : ℝ) else 0) * (w y / ∑ ω', w (move x ω')) := by
    intro x y
    unfold law
    rw [Finset.sum_mul]
    refine Finset.sum_congr rfl fun ω _ => ?_
    split_ifs with h
    · simp only [one_mul, h]
    · rw [zero_mul]
  have aux : ∀ x ∈ S, ∀ y ∈ S, (∃ ω, move x ω = y) →
      w x * law (fun ω => w (move x ω) / ∑ ω', w (move x ω')) (move x) y =
      w y * law (fun ω => w (move y ω) / ∑ ω', w (move y ω')) (move y) x := by
    rintro x hx y hy ⟨ω₀, rfl⟩
    rw [hlaw, hlaw]
    have h1 := hfib x hx ω₀ hy w
    have h2 := hfib x hx ω₀ hy (fun z => if z = move x ω₀ then (1 : ℝ) else 0)
    have h3 := hfib x hx ω₀ hy (fun z => if z = x then (1 : ℝ) else 0)
    have h4 := hdiag x hx ω₀ hy
    rw [← h1, h2, ← h4, h3]
    ring
  intro x hx y hy
  by_cases hxy : ∃ ω, move x ω = y
  · exact aux x hx y hy hxy
  · by_cases hyx : ∃ ω, move y ω = x
    · exact (aux y hy x hx hyx).symm
    · push Not at hxy hyx
      simp only [law_eq_zero hxy, law_eq_zero hyx, mul_zero]

end Discs.Spec
