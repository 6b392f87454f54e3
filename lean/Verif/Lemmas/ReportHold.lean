import Verif.Lemmas.Report
import Verif.Lemmas.Irreducible

/-!
# Lemmas on runs that look at every second step only
-/

namespace Discs.Spec

open Finset

variable {X : Type*} {S A : Finset X}

/-- Moves that are possible during the next `m` steps only. -/
theorem Reaches.of_window {look : ℕ → Prop} {R' : X → X → Prop} {R : ℕ → X → X → Prop} {m : ℕ} :
    ∀ {t : ℕ} {x : X}, x ∈ S → (∀ i < m, ∀ a ∈ S, ∀ b ∈ S, R' a b → R (t + i) a b) →
      Reaches S (fun _ => R') look A m t x → Reaches S R look A m t x := by
  induction m with
  | zero => intro t x _ _ h; exact absurd h id
  | succ m ih =>
    rintro t x hx hR ⟨z, hz, h1, h2⟩
    refine ⟨z, hz, hR 0 (by omega) x hx z hz h1, h2.imp id fun h => ih hz (fun i hi => ?_) h⟩
    have := hR (i + 1) (by omega)
    rwa [← add_assoc, add_right_comm] at this

/-- If every sample can be reached within `m` moves, moves can be taken back, and in every stretch of `2m + 1 + e` steps
some sample can be kept, every sample can be shown at a logged step, whatever the parity of the log interval. -/
theorem reaches_hold {F : X → X → Prop} {H : ℕ → X → Prop} {m e : ℕ} (he : 0 < e) {y : X} (hy : y ∈ S) (hA : y ∈ A)
    (hback : Walk S F 2 y y) (hw : ∀ x ∈ S, ∀ z ∈ S, ∃ n ≤ m, Walk S F n x z)
    (hH : ∀ t, ∃ x₀ ∈ S, ∀ i < 2 * m + 1 + e, H (t + i) x₀) (t : ℕ) {x : X} (hx : x ∈ S) :
    Reaches S (fun t a b => F a b ∨ a = b ∧ H t a) (fun t => e ∣ t + 1) A (2 * m + 1 + e) t x := by
  obtain ⟨x₀, hx₀, hkeep⟩ := hH t
  obtain ⟨n₁, h1, w1⟩ := hw x hx x₀ hx₀
  obtain ⟨n₂, h2, w2⟩ := hw x₀ hx₀ y hy
  obtain ⟨k, hk1, hk2, hk3⟩ := exists_logged he t (2 * m + 1)
  let R' : X → X → Prop := fun a b => F a b ∨ a = b ∧ a = x₀
  have lift : ∀ {n a b}, Walk S F n a b → Walk S R' n a b := fun h => Walk.mono (fun _ _ _ h => Or.inl h) h
  have hpow : ∀ i, Walk S R' (2 * i) y y := by
    intro i
    induction i with
    | zero => rfl
    | succ i ih => exact ih.trans (lift hback)
  have hwalk : Walk S R' (k + 1) x y := by
    rcases Nat.even_or_odd (k + 1 - (n₁ + n₂)) with ⟨i, hi⟩ | ⟨i, hi⟩
    · have := ((lift w1).trans (lift w2)).trans (hpow i)
      rwa [show n₁ + n₂ + 2 * i = k + 1 by omega] at this
    · have := (((lift w1).trans (Walk.single hx₀ (Or.inr ⟨rfl, rfl⟩) : Walk S R' 1 x₀ x₀)).trans (lift w2)).trans (hpow i)
      rwa [show n₁ + 1 + n₂ + 2 * i = k + 1 by omega] at this
  refine Reaches.of_window hx ?_ (Reaches.mono hk2 hx (reaches_of_walk hy hA k t x hx hwalk hk3))
  rintro i hi a - b - (h | ⟨rfl, rfl⟩)
  · exact Or.inl h
  · exact Or.inr ⟨rfl, hkeep i hi⟩

/-- On a walk along which a function grows by more than `n` times `c` in total there is a step on which it grows by more
than `c`. -/
theorem Walk.exists_growth {R : X → X → Prop} {φ : X → ℝ} {c : ℝ} {n : ℕ} : ∀ {x y : X}, y ∈ S → Walk S R n x y →
    n * c < φ y - φ x → ∃ a ∈ S, ∃ b ∈ S, R a b ∧ c < φ b - φ a := by
  induction n with
  | zero => rintro x y - rfl h; simp at h
  | succ n ih =>
    rintro x y hy ⟨z, hz, h1, h2⟩ h
    by_cases hc : c < φ y - φ z
    · exact ⟨z, hz, y, hy, h2, hc⟩
    · refine ih hz h1 ?_
      push_cast at h
      linarith

/-- A property that the moves keep holds of all samples that can be reached. -/
theorem Walk.keeps {R : X → X → Prop} {P : X → Prop} (hP : ∀ a ∈ S, P a → ∀ b ∈ S, R a b → P b) {n : ℕ} :
    ∀ {x y : X}, y ∈ S → Walk S R n x y → P x → P y := by
  induction n with
  | zero => rintro x y - rfl h; exact h
  | succ n ih => rintro x y hy ⟨z, hz, h1, h2⟩ h; exact hP z hz (ih hz h1 h) y hy h2

end Discs.Spec
