import Mathlib.Analysis.SpecialFunctions.Log.Basic
import Mathlib.Data.List.Basic

/-!
# Specification vocabulary: masked language models and infilling
-/

namespace Discs.Spec

open Finset

/-- Conditional law of the token at position `i` that a masked language model gives when position `i`
shows `row` and the other positions show the tokens `x`: logits normalised to a distribution. -/
noncomputable def maskedCond {k V : ℕ} (row : Fin V → ℝ) (net : (Fin k → Fin V → ℝ) → Fin k → Fin V → ℝ)
    (x : Fin k → Fin V) (i : Fin k) (v : Fin V) : ℝ :=
  let logits := net (fun j => if j = i then row else fun c => if c = x j then 1 else 0) i
  Real.exp (logits v) / ∑ w, Real.exp (logits w)

/-- The row that stands for the token `m`. -/
def tokenRow {V : ℕ} (m : Fin V) : Fin V → ℝ := fun c => if c = m then 1 else 0

variable {T : Type*} [DecidableEq T]

/-- `tokens` with the occurrences of `m` replaced, from left to right, by the entries of `x`. -/
def fillIn (m : T) : List T → List T → List T
  | [], _ => []
  | t :: ts, [] => t :: ts
  | t :: ts, v :: vs => if t = m then v :: fillIn m ts vs else t :: fillIn m ts (v :: vs)

/-- The list without its first `n` elements that satisfy `p`. -/
def withoutFirst {α : Type*} (p : α → Bool) : ℕ → List α → List α
  | _, [] => []
  | 0, a :: l => a :: l
  | n + 1, a :: l => if p a then withoutFirst p n l else a :: withoutFirst p (n + 1) l

/-- `pos` is a possible result of drawing `n` distinct elements of `1, …, len - 2`. -/
def DrawnInside (len n : ℕ) (pos : List ℕ) : Prop :=
  pos.length = n ∧ pos.Nodup ∧ ∀ p ∈ pos, 1 ≤ p ∧ p + 1 < len

end Discs.Spec
