import Verif.Model.Launcher
import Verif.Model.Comb
import Mathlib.Data.Real.Basic

/-!
# The settings of the combinatorial models

What the constructors of the combinatorial models read in the configuration of a job.
-/

namespace Discs

/-- `self.config.get('penalty', 2.0)` (`mis.py:15`, `maxclique.py:15`). -/
def penaltyCoeff (c : Cfg Key Val) : ℚ := ((c .model .penalty).bind Val.rat?).getD 2

/-- The attributes set by `NormCut.__init__` (`normcut.py:12-23`); `none` if it raises because `penalty`, or, with a
positive penalty, `tolerance` is not set.  `nodes` and `cats` are `max_num_nodes` and `num_categories`, which the loader
of the graph has set by then (`data_loader/graph_loader.py`).  Without a penalty the fields `quad` and `tolerance` are not
attributes of the object and not read. -/
noncomputable def ncSettings (c : Cfg Key Val) (nodes cats : ℕ) : Option NCConfig := do
  let p ← (c .model .penalty).bind Val.rat?
  let t ← if 0 < p then (c .model .tolerance).bind Val.rat? else some 0
  return { penalty := p, quad := (c .model .stype).bind Val.str? == some "quad", avgSize := (nodes : ℝ) / cats,
           tolerance := nodes * (t : ℝ), eps := 1e-8 }

end Discs
