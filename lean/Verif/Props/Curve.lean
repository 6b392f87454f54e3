import Verif.Model.Curve
import Verif.Props.COExperiment

/-!
# C99: the curves of the solution quality over steps and time
-/

namespace Discs

variable {K X S V : Type*} {M B : ℕ}

private theorem mapIdx_range {α β : Type*} (n : ℕ) (g : ℕ → α) (f : ℕ → α → β) :
    ((List.range n).map g).mapIdx f = (List.range n).map fun k => f k (g k) := by
  refine List.ext_getElem (by simp) fun i h1 h2 => ?_
  simp

/-- **C99 (points).**  Point `i` of the curve shows the mean best ratio after step `(i + 1) * logEvery`, drawn at
`1 + i * drawn`. -/
theorem stepCurve_points [NeZero B] (d : CODriver K X S V M B) (e : ℕ) (drawn : Option ℕ) (L : ℕ) (ratio : ℝ)
    (h0 : 0 ≤ ratio) (h1 : ratio ≤ 1) (zero : V) (k : K) (x : X) (s : S) :
    stepCurve drawn (coChain d e L ratio zero k x s).chain = (List.range (L / e)).map fun i =>
      (1 + i * drawn.getD 1000, listMean (maskedBest d.sampleIdx (coChain d e ((i + 1) * e) ratio zero k x s).best)) := by
  rw [co_trajectory d e L ratio h0 h1, stepCurve, mapIdx_range]

/-- **C99 (steps).**  With at least two points, the points stand at the steps they belong to if and only if every step
is logged and the folder name says so. -/
theorem stepCurve_right_iff (e : ℕ) (drawn : Option ℕ) (n : ℕ) (hn : 2 ≤ n) :
    (∀ i < n, 1 + i * drawn.getD 1000 = (i + 1) * e) ↔ e = 1 ∧ drawn = some 1 := by
  constructor
  · intro h
    have a := h 0 (by omega)
    have b := h 1 (by omega)
    have he : e = 1 := by omega
    refine ⟨he, ?_⟩
    cases drawn with
    | none => simp [he] at b
    | some v =>
      simp only [Option.getD_some] at b
      congr 1
      omega
  · rintro ⟨rfl, rfl⟩ i -
    simp only [Option.getD_some]
    omega

/-- **C99 (steps, refuted).**  With the right value in the folder name every point is `logEvery - 1` steps too far to the
left. -/
theorem stepCurve_shift (e : ℕ) (he : 0 < e) (i : ℕ) : 1 + i * (some e).getD 1000 + (e - 1) = (i + 1) * e := by
  rw [Option.getD_some, Nat.succ_mul]
  omega

/-- **C99 (no descent).**  The curve never falls. -/
theorem stepCurve_mono [NeZero B] (d : CODriver K X S V M B) (e : ℕ) (drawn : Option ℕ) (L : ℕ) (ratio : ℝ)
    (h0 : 0 ≤ ratio) (h1 : ratio ≤ 1) (zero : V) (k : K) (x : X) (s : S) :
    (stepCurve drawn (coChain d e L ratio zero k x s).chain).Pairwise fun p q => p.2 ≤ q.2 := by
  rw [stepCurve_points d e drawn L ratio h0 h1, List.pairwise_map]
  refine List.pairwise_lt_range.imp fun {i j} hij => ?_
  dsimp only
  unfold listMean maskedBest
  rw [List.length_map, List.length_map]
  refine div_le_div_of_nonneg_right (List.sum_le_sum fun m _ => ?_) (Nat.cast_nonneg _)
  exact co_best_mono d e (Nat.mul_le_mul_right e (by omega)) ratio ratio h0 h1 h0 h1 zero k x s m

/-- **C99 (time).**  If all steps take the same time and half of them are timed, point `i` belongs to the time
`(i + 1) / n * total`; it is drawn one `n`-th of the total time too early. -/
theorem timeCurve_shift (total : ℝ) (traj : List (List ℝ)) (i : ℕ) (hi : i < traj.length) :
    ∃ p, (timeCurve (total / 2) traj)[i]? = some p ∧ p.2 = listMean traj[i] ∧
      p.1 + total / traj.length = ((i : ℝ) + 1) / traj.length * total := by
  refine ⟨_, by rw [timeCurve, List.getElem?_mapIdx, List.getElem?_eq_getElem hi]; rfl, rfl, ?_⟩
  dsimp only
  ring

/-- A run with a curve of two points. -/
example : ∃ d : CODriver Unit Unit Unit Unit 1 1,
    ((stepCurve (some 100) (coChain d 100 200 0 () () () ()).chain).map Prod.fst) = [1, 101] := by
  refine ⟨⟨fun _ _ => (), fun _ _ _ _ => ((), ()), fun _ => 1, fun _ _ _ => 1, fun _ _ _ => (), fun _ => 1,
    fun _ => 0⟩, ?_⟩
  have h := stepCurve_points (B := 1) (M := 1) (K := Unit) (X := Unit) (S := Unit) (V := Unit)
    ⟨fun _ _ => (), fun _ _ _ _ => ((), ()), fun _ => 1, fun _ _ _ => 1, fun _ _ _ => (), fun _ => 1, fun _ => 0⟩
    100 (some 100) 200 0 le_rfl zero_le_one () () () ()
  rw [show ((100 : ℕ) : ℤ) = 100 from rfl] at h
  rw [h, List.map_map]
  rfl

end Discs
