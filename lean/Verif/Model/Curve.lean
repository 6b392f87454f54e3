import Verif.Model.Experiment

/-!
# Model of the curves of `discs/plot_results/plot_co_through_time.py`
-/

namespace Discs

/-- `np.mean` of one row. -/
noncomputable def listMean (l : List ℝ) : ℝ := l.sum / l.length

/-- The points of the curve over the steps (`plot_co_through_time.py:53-58, 69-75, 201, 207-213`): `logEvery` is the
value in the folder name, if there is one. -/
noncomputable def stepCurve (logEvery : Option ℕ) (traj : List (List ℝ)) : List (ℕ × ℝ) :=
  traj.mapIdx fun k row => (1 + k * logEvery.getD 1000, listMean row)

/-- The points of the curve over the time (`plot_co_through_time.py:60-63, 226-230`): `np.arange(0, 1, 1 / n)` times twice
the saved running time. -/
noncomputable def timeCurve (runningTime : ℝ) (traj : List (List ℝ)) : List (ℝ × ℝ) :=
  traj.mapIdx fun k row => ((k : ℝ) * (1 / traj.length) * (2 * runningTime), listMean row)

end Discs
