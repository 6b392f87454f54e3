import Mathlib.Analysis.BoxIntegral.UnitPartition
import Mathlib.Analysis.Convex.Measure
import Mathlib.MeasureTheory.Measure.Haar.InnerProductSpace
import Mathlib.MeasureTheory.Measure.Lebesgue.VolumeOfBalls
import Mathlib.Analysis.Real.Pi.Bounds
import Verif.Model.Lattice

/-!
# C33: the disc of sites with a positive field

The external field of the Ising and Potts models is `+mu` inside a disc and `-mu` outside.  The disc covers half of
the lattice.
-/

namespace Discs

open MeasureTheory Filter Topology
open scoped Pointwise

/-- The disc of area one half in the unit square. -/
private def disc : Set (Fin 2 → ℝ) := {z | (z 0 - 0.5) ^ 2 + (z 1 - 0.5) ^ 2 < 0.5 / Real.pi}

private theorem disc_eq : disc = WithLp.toLp 2 ⁻¹'
    Metric.ball (WithLp.toLp 2 ![0.5, 0.5] : EuclideanSpace ℝ (Fin 2)) √(0.5 / Real.pi) := by
  have h0 : (0 : ℝ) ≤ 0.5 / Real.pi := by positivity
  ext z
  simp only [disc, Set.mem_ofPred_eq, Set.mem_preimage, Metric.mem_ball, EuclideanSpace.dist_eq, Fin.sum_univ_two,
    Matrix.cons_val_zero, Matrix.cons_val_one, Real.dist_eq, sq_abs]
  rw [Real.sqrt_lt_sqrt_iff (by positivity)]

private theorem volume_disc : volume disc = ENNReal.ofReal (1 / 2) := by
  rw [disc_eq, (PiLp.volume_preserving_toLp (Fin 2)).measure_preimage measurableSet_ball.nullMeasurableSet,
    EuclideanSpace.volume_ball_fin_two, ← ENNReal.ofReal_pow (Real.sqrt_nonneg _), Real.sq_sqrt (by positivity),
    ← ENNReal.ofReal_mul (by positivity)]
  congr 1
  field_simp
  norm_num

private theorem disc_inside {z : Fin 2 → ℝ} (hz : z ∈ disc) (i : Fin 2) : 0 < z i ∧ z i < 1 := by
  have hb : 0.5 / Real.pi < 0.25 := by
    rw [div_lt_iff₀ Real.pi_pos]
    linarith [Real.pi_gt_three]
  have hz' : (z 0 - 0.5) ^ 2 + (z 1 - 0.5) ^ 2 < 0.25 := lt_trans hz hb
  have key : (z i - 0.5) ^ 2 < 0.5 ^ 2 := by
    fin_cases i
    · simp only [Fin.zero_eta]
      nlinarith [sq_nonneg (z 1 - 0.5)]
    · simp only [Fin.mk_one]
      nlinarith [sq_nonneg (z 0 - 0.5)]
  have := abs_lt_of_sq_lt_sq key (by norm_num)
  rw [abs_lt] at this
  constructor <;> linarith [this.1, this.2]

/-- The sites with a positive field (if `mu` is positive). -/
def Spec.innerSites (n : ℕ) : Set (Fin n × Fin n) := {p | innerOuter n n p.1 p.2 = 1}

private noncomputable def scaled (n : ℕ) (p : Fin n × Fin n) : Fin 2 → ℝ := ![(p.1 : ℝ) / n, (p.2 : ℝ) / n]

private theorem inner_iff (n : ℕ) (p : Fin n × Fin n) : innerOuter n n p.1 p.2 = 1 ↔ scaled n p ∈ disc := by
  rw [innerOuter]
  show _ ↔ (scaled n p 0 - 0.5) ^ 2 + (scaled n p 1 - 0.5) ^ 2 < _
  simp only [scaled, Matrix.cons_val_zero, Matrix.cons_val_one]
  split_ifs with h
  · exact ⟨fun _ => h, fun _ => rfl⟩
  · exact ⟨fun h' => by norm_num at h', fun h' => absurd h' h⟩

private theorem card_inner (n : ℕ) [NeZero n] :
    Nat.card (Spec.innerSites n)
      = Nat.card ↑(disc ∩ ((n : ℝ)⁻¹ • (Submodule.span ℤ (Set.range (Pi.basisFun ℝ (Fin 2))) : Set (Fin 2 → ℝ)))) := by
  have hn : (0 : ℝ) < n := Nat.cast_pos.2 (NeZero.pos n)
  have hinj : Function.Injective (scaled n) := by
    intro p q h
    have h0 := congrFun h 0
    have h1 := congrFun h 1
    simp only [scaled, Matrix.cons_val_zero, Matrix.cons_val_one] at h0 h1
    rw [div_left_inj' hn.ne', Nat.cast_inj] at h0 h1
    exact Prod.ext (Fin.ext h0) (Fin.ext h1)
  rw [← Nat.card_image_of_injective hinj]
  congr 2
  ext z
  rw [Set.mem_inter_iff, ← Submodule.coe_pointwise_smul, SetLike.mem_coe, BoxIntegral.unitPartition.mem_smul_span_iff]
  constructor
  · rintro ⟨p, hp, rfl⟩
    refine ⟨(inner_iff n p).1 hp, fun i => ?_⟩
    fin_cases i
    · exact ⟨(p.1 : ℤ), by simp [scaled]; field_simp⟩
    · exact ⟨(p.2 : ℤ), by simp [scaled]; field_simp⟩
  · rintro ⟨hz, hi⟩
    have hex : ∀ i, ∃ a : Fin n, (a : ℝ) / n = z i := by
      intro i
      obtain ⟨a, ha⟩ := hi i
      have ha' : (a : ℝ) = n * z i := by simpa using ha
      obtain ⟨h0, h1⟩ := disc_inside hz i
      have hpos : (0 : ℝ) < a := by rw [ha']; positivity
      have hlt : (a : ℝ) < n := by rw [ha']; nlinarith
      have hpos' : 0 < a := by exact_mod_cast hpos
      have hlt' : a < n := by exact_mod_cast hlt
      refine ⟨⟨a.toNat, by omega⟩, ?_⟩
      have : ((a.toNat : ℕ) : ℝ) = (a : ℝ) := by
        have : ((a.toNat : ℕ) : ℤ) = a := Int.toNat_of_nonneg hpos'.le
        exact_mod_cast congrArg (Int.cast : ℤ → ℝ) this
      rw [this, ha']
      field_simp
    obtain ⟨a, ha⟩ := hex 0
    obtain ⟨b, hb⟩ := hex 1
    have e : scaled n (a, b) = z := by
      funext i
      fin_cases i
      · simpa [scaled] using ha
      · simpa [scaled] using hb
    exact ⟨(a, b), (inner_iff n (a, b)).2 (e ▸ hz), e⟩

/-- **C33 (field).**  On large square lattices half of the sites lie in the disc with field `+mu`, the other half have
field `-mu`. -/
theorem innerOuter_half :
    Tendsto (fun n : ℕ => (Nat.card (Spec.innerSites n) : ℝ) / n ^ 2) atTop (𝓝 (1 / 2)) := by
  have hconv : Convex ℝ disc := by
    rw [disc_eq]
    exact (convex_ball _ _).is_linear_preimage
      ⟨fun _ _ => rfl, fun _ _ => rfl⟩
  have hbd : Bornology.IsBounded disc := by
    refine (Metric.isBounded_Icc (0 : Fin 2 → ℝ) 1).subset fun z hz => ?_
    exact ⟨fun i => (disc_inside hz i).1.le, fun i => (disc_inside hz i).2.le⟩
  have hmeas : MeasurableSet disc := by
    rw [disc_eq]
    exact (PiLp.volume_preserving_toLp (Fin 2)).measurable measurableSet_ball
  have h := tendsto_card_div_pow_atTop_volume disc hbd hmeas (hconv.addHaar_frontier volume)
  rw [measureReal_def, volume_disc, ENNReal.toReal_ofReal (by norm_num), Fintype.card_fin] at h
  refine h.congr' ?_
  filter_upwards [eventually_gt_atTop 0] with n hn
  have : NeZero n := ⟨hn.ne'⟩
  rw [card_inner]

/-- **C33 (field).**  The field without its random part is `mu` inside the disc and `-mu` outside. -/
theorem isingInitB_disc {n : ℕ} (mu : ℝ) (u : Grid n n) (p : Fin n × Fin n) :
    (p ∈ Spec.innerSites n → isingInitB 0 mu u p.1 p.2 = mu) ∧
      (p ∉ Spec.innerSites n → isingInitB 0 mu u p.1 p.2 = -mu) := by
  unfold Spec.innerSites isingInitB innerOuter
  simp only [Set.mem_ofPred_eq]
  split_ifs with h
  · simp
  · norm_num

end Discs
