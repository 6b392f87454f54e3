import Verif.Model.LocallyBalanced

/-!
# Model of `LocallyBalancedSampler.step` (`discs/samplers/locallybalanced.py:65-80`)
-/

namespace Discs

open Finset

/-- What `model.logratio_in_neighborhood` is, seen by the sampler: missing (`categorical.py`, `ising.py`,
`potts.py`, …), a function returning a 3-tuple (`bernoulli.py:57-61`, `mis.py:42-55`) or a 4-tuple
(`maxcut.py:40-58`; `normcut.py:83-120` with `None` as the last entry). -/
inductive LBIface (D : ℕ)
  | absent
  | triple
  | quad (logratio : (Fin D → ℤ) → Fin D → ℝ) (calls : ℕ)
      (neighbor : Option ((Fin D → ℤ) → Fin D → Fin D → ℤ))

/-- The state dictionary: `steps` is absent from the dictionary built in lines 77-79. -/
structure LBPlainState where
  numLlCalls : ℕ
  steps : Option ℕ
deriving DecidableEq, Repr

/-- `abstractsampler.py:34-38`. -/
def lbPlainInit : LBPlainState := ⟨0, some 0⟩

/-- `comb_ebm.py:53-57` `get_neighbor_fn`, one row. -/
def flipAt {D : ℕ} (x : Fin D → ℤ) (i : Fin D) : Fin D → ℤ := fun j => if j = i then 1 - x j else x j

/-- `locallybalanced.py:65-80` `step`; the mask is ignored, there is no acceptance test, and the result
is a pair.  `idx b` is the categorical draw of row `b` (line 72). -/
noncomputable def lbStep {B D : ℕ} (name : String) (m : LBIface D) (x : Fin B → Fin D → ℤ)
    (idx : Fin B → Fin D) (s : LBPlainState) : Except String ((Fin B → Fin D → ℤ) × LBPlainState) :=
  match m with
  | .absent => .error "model does not have logratio_in_neighborhood function."
  | .triple => .error "not enough values to unpack (expected 4, got 3)"
  | .quad _ calls nb =>
    match applyWeightLog name 0 with
    | .error e => .error e
    | .ok _ =>
      match nb with
      | none => .error "'NoneType' object is not callable"
      | some fn => .ok (fun b => fn (x b) (idx b), ⟨s.numLlCalls + calls, none⟩)

/-- Law of the draw of one row: categorical with logits the weighted log-ratios (lines 71-72). -/
noncomputable def lbDrawLaw {D : ℕ} (h : ℝ → ℝ) (logratio : (Fin D → ℤ) → Fin D → ℝ) (x : Fin D → ℤ) :
    Fin D → ℝ := softmax fun i => h (logratio x i)

/-- Transition probabilities of one chain for a model whose interface works (`h` is the weight function
selected by `name`). -/
noncomputable def lbKernel {D : ℕ} (name : String) (h : ℝ → ℝ) (logratio : (Fin D → ℤ) → Fin D → ℝ)
    (x y : Fin D → ℤ) : ℝ :=
  Spec.law (lbDrawLaw h logratio x) (fun i =>
    ((lbStep name (.quad logratio 1 (some flipAt)) (fun _ : Fin 1 => x) (fun _ => i)
      lbPlainInit).toOption).map fun r => r.1 0) (some y)

/-- How the experiment uses a sampler step (`sampling.py`: `new_x, state, acc = compiled_step(...)`):
a pair cannot be unpacked into three names. -/
noncomputable def lbDriverStep {B D : ℕ} (name : String) (m : LBIface D) (x : Fin B → Fin D → ℤ)
    (idx : Fin B → Fin D) (s : LBPlainState) :
    Except String ((Fin B → Fin D → ℤ) × LBPlainState × ℝ) :=
  match lbStep name m x idx s with
  | .error e => .error e
  | .ok _ => .error "not enough values to unpack (expected 3, got 2)"

end Discs
