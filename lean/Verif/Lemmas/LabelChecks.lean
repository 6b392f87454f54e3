import Verif.Spec.JobLabels
import Verif.Model.ShippedFiles
import Mathlib.Tactic.IntervalCases

/-!
# The labels of all shipped jobs, computed
-/

namespace Discs

-- The checks below run one after the other to save memory.
set_option Elab.async false

open Spec

def nameCheck (kw : List Arg) : Bool :=
  match jobDict 0 kw with
  | none => false
  | some d => decide (dictGet d "name".toList = some (labelOf (samplerArgs kw))) &&
    (samplerId (labelOf (samplerArgs kw))).isSome &&
    ((otherArgs kw).all fun a => decide (a.1.2 = .name) || decide (dictGet d a.1.2.text = some (shownVal a.1.2 a.2))) &&
    (d.all fun kv => decide (kv.1 = "name".toList) || (otherArgs kw).any fun a => decide (a.1.2.text = kv.1)) &&
    decide (d.map Prod.fst).Nodup

/-- The jobs of a sweep in portions of 64. -/
def portion (rc : RunConfig) (j : ℕ) : List (List Arg) := ((rc.jobs.getD []).drop (64 * j)).take 64

def samplerCheck (rc : RunConfig) : Bool :=
  let l := ((rc.jobs.getD []).map samplerArgs).dedup
  l.all fun a => l.all fun b => decide (a = b) || !decide (labelOf a = labelOf b)

def otherCheck (rc : RunConfig) : Bool :=
  let l := ((rc.jobs.getD []).map otherArgs).dedup
  l.all fun a => l.all fun b => a.isPerm b || a.any fun p => b.any fun q =>
    decide (p.1.2 = q.1.2) && decide (p.1.2 ≠ .name ∧ p.1.2 ≠ .save_samples) && !decide (shownVal p.1.2 p.2 = shownVal q.1.2 q.2)

/-- All jobs of a sweep set the same keys. -/
def keysCheck (rc : RunConfig) : Bool :=
  let l := ((rc.jobs.getD []).map otherArgs).dedup
  l.all fun a => l.all fun b => a.all fun p => b.any fun q => decide (p.1.2 = q.1.2)

theorem sweeps_size : shippedSweeps.all (fun rc => decide ((rc.jobs.getD []).length ≤ 256)) = true := by decide +kernel

theorem samplerCheck_part : ∀ i < 4, ((shippedSweeps.drop (11 * i)).take 11).all samplerCheck = true := by
  intro i hi
  interval_cases i <;> decide +kernel

theorem otherCheck_part : ∀ i < 11, ((shippedSweeps.drop (4 * i)).take 4).all otherCheck = true := by
  intro i hi
  interval_cases i <;> decide +kernel

theorem keysCheck_part : ∀ i < 4, ((shippedSweeps.drop (11 * i)).take 11).all keysCheck = true := by
  intro i hi
  interval_cases i <;> decide +kernel

set_option maxHeartbeats 4000000 in
theorem nameCheck_part : ∀ i < 22, ∀ j < 4,
    ((shippedSweeps.drop (2 * i)).take 2).all (fun rc => (portion rc j).all nameCheck) = true := by
  intro i hi j hj
  interval_cases i <;> interval_cases j <;> decide +kernel

end Discs
