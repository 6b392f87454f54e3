import Mathlib.Data.List.Pairwise
import Mathlib.Data.List.Infix

/-!
# Specification: the single-use rule for random keys

JAX programs carry explicit keys.  A key is made from an integer seed, and new keys are derived from
old ones by `split` and by `fold_in`.  A key is therefore determined by its seed and by the sequence
of derivations that lead to it.

The rule a program has to obey for its draws to be treated as independent is the one stated in the
JAX documentation: a key is used once.  Either it is consumed by one draw, or new keys are derived
from it.  A key that is consumed must not be consumed again, and no other consumed key may have been
derived from it: `split` and the samplers hash the same counters with the same key, so the derived
keys *are* bits that the draw has already handed out.

Nothing in this file refers to the model of the code.
-/

namespace Discs.Spec

/-- One derivation: the `i`-th of `n` keys made by a split, or folding in the integer `d`. -/
inductive KeyOp where
  | split (n i : ℕ)
  | fold (d : ℕ)
  deriving DecidableEq, Repr

/-- A key: the seed it comes from and the derivations that made it, first one first. -/
structure Key where
  seed : ℕ
  path : List KeyOp
  deriving DecidableEq, Repr

/-- `a` is `b`, or `b` was derived from `a` in some number of derivations. -/
def Ancestor (a b : Key) : Prop := a.seed = b.seed ∧ a.path <+: b.path

instance (a b : Key) : Decidable (Ancestor a b) := by unfold Ancestor; infer_instance

/-- Neither key is derived from the other, and they are different. -/
def Unrelated (a b : Key) : Prop := ¬ Ancestor a b ∧ ¬ Ancestor b a

instance (a b : Key) : Decidable (Unrelated a b) := by unfold Unrelated; infer_instance

/-- The single-use rule for the list of keys consumed by the draws of a program. -/
def SingleUse (l : List Key) : Prop := l.Pairwise Unrelated

instance (l : List Key) : Decidable (SingleUse l) := by unfold SingleUse; infer_instance

end Discs.Spec
