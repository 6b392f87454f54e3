import Verif.Model.Gibbs
import Verif.Model.BlockGibbs
import Verif.Model.HammingBall
import Verif.Model.RandomWalk
import Verif.Model.GWG
import Verif.Model.PathAux
import Verif.Model.DMALA
import Verif.Model.DLMC
import Verif.Lemmas.LocallyBalanced
import Verif.Props.MathUtil
import Verif.Props.GWG

/-!
# C130: the acceptance rate that a step reports

The third result of `step` (`abstractsampler.py:30`), which the experiments average and save.
-/

namespace Discs

open Finset MeasureTheory

open Classical in
/-- The step moves chain `b` to `new b` on the noises in a set `A b` and leaves it at `cur b` on the others; the
reported number is between zero and one and within `1e-24` of the mean over the chains of the probability of `A b`
under uniform noise. -/
def Spec.ReportsAcceptance {B : ℕ} {X : Type*} (cur new : Fin B → X) (out : (Fin B → ℝ) → Fin B → X)
    (acc : (Fin B → ℝ) → ℝ) : Prop :=
  ∃ A : Fin B → Set ℝ, (∀ u b, out u b = if u b ∈ A b then new b else cur b) ∧
    ∀ u, 0 ≤ acc u ∧ acc u ≤ 1 ∧ |acc u - (∑ b, (volume (Set.Ico 0 1 ∩ A b)).toReal) / B| ≤ 1e-24

namespace Rep

theorem mh_reports {B : ℕ} {X Y : Type*} (la : Fin B → ℝ) (cur new : Fin B → X) (φ : X → Y) :
    Spec.ReportsAcceptance (fun b => φ (cur b)) (fun b => φ (new b)) (fun u b => φ ((mhStep mhTiny u la cur new).1 b))
      (fun _ => meanB fun b => clipMax (Real.exp (la b)) 1) := by
  refine ⟨fun b => {v | bernoulliLogp mhTiny v (la b)}, fun u b => ?_, fun u => ?_⟩
  · obtain ⟨h1, h2, h3⟩ := mhStep_row mhTiny u la cur new b
    by_cases h : bernoulliLogp mhTiny (u b) (la b)
    · rw [if_pos (show u b ∈ {v | bernoulliLogp mhTiny v (la b)} from h)]
      exact congrArg φ (h2 (h1.2 h))
    · rw [if_neg (show u b ∉ {v | bernoulliLogp mhTiny v (la b)} from h)]
      exact congrArg φ (h3 (mt h1.1 h))
  · have hb : ∀ b, 0 ≤ clipMax (Real.exp (la b)) 1 ∧ clipMax (Real.exp (la b)) 1 ≤ 1 := fun b =>
      ⟨le_min (Real.exp_pos _).le zero_le_one, min_le_right _ _⟩
    unfold meanB
    rcases Nat.eq_zero_or_pos B with rfl | hB
    · simp; norm_num
    have hB' : (0 : ℝ) < B := Nat.cast_pos.2 hB
    refine ⟨div_nonneg (Finset.sum_nonneg fun b _ => (hb b).1) hB'.le, ?_, ?_⟩
    · rw [div_le_one hB']
      calc ∑ b, clipMax (Real.exp (la b)) 1 ≤ ∑ _b : Fin B, (1 : ℝ) := Finset.sum_le_sum fun b _ => (hb b).2
        _ = B := by simp
    · rw [← sub_div, ← Finset.sum_sub_distrib, abs_div, abs_of_pos hB', div_le_iff₀ hB']
      calc |∑ b, (clipMax (Real.exp (la b)) 1 -
              (volume (Set.Ico 0 1 ∩ {v | bernoulliLogp mhTiny v (la b)})).toReal)|
          ≤ ∑ b, |clipMax (Real.exp (la b)) 1 -
              (volume (Set.Ico 0 1 ∩ {v | bernoulliLogp mhTiny v (la b)})).toReal| := Finset.abs_sum_le_sum_abs _ _
        _ ≤ ∑ _b : Fin B, (1e-24 : ℝ) := Finset.sum_le_sum fun b _ => by
            rw [abs_sub_comm]
            have := bernoulliLogp_close (la b)
            rw [min_comm] at this
            exact this
        _ = 1e-24 * B := by rw [Finset.sum_const, Finset.card_univ, Fintype.card_fin, nsmul_eq_mul, mul_comm]

theorem mh_reports' {B : ℕ} {X Y : Type*} (la : Fin B → ℝ) (cur new : Fin B → X) (φ : X → Y) {c n : Fin B → Y}
    (hc : ∀ b, φ (cur b) = c b) (hn : ∀ b, φ (new b) = n b) :
    Spec.ReportsAcceptance c n (fun u b => φ ((mhStep mhTiny u la cur new).1 b))
      (fun _ => meanB fun b => clipMax (Real.exp (la b)) 1) := by
  have h := mh_reports la cur new φ
  rwa [funext hc, funext hn] at h

theorem exp_clip (l : ℝ) : Real.exp (clipMax l 0) = clipMax (Real.exp l) 1 := by
  unfold clipMax
  rw [Real.exp_monotone.map_min, Real.exp_zero]

theorem mean_exp_clip {B : ℕ} (la : Fin B → ℝ) :
    (meanB fun b => Real.exp (clipMax (la b) 0)) = meanB fun b => clipMax (Real.exp (la b)) 1 := by
  simp only [exp_clip]

end Rep

/-- **C130 (random walk).** -/
theorem rw_acceptance {B D : ℕ} (adaptive : Bool) (target : ℝ) (f : (Fin D → ℤ) → ℝ) (C : ℕ) (x : Fin B → Fin D → ℤ)
    (d : Fin B → RWDraw C D) (s : RWState) :
    Spec.ReportsAcceptance x (fun b => rwPropose (x b) (d b)) (fun u => (rwStep adaptive target mhTiny f C x d u s).1)
      (fun u => (rwStep adaptive target mhTiny f C x d u s).2.2) := by
  have h := Rep.mh_reports (fun b => f (rwPropose (x b) (d b)) - f (x b)) x (fun b => rwPropose (x b) (d b)) id
  cases adaptive <;> exact h

/-- **C130 (binary GWG).** -/
theorem gwg_acceptance {B D k : ℕ} (h : ℝ → ℝ) (f : (Fin D → ℤ) → ℝ) (g : (Fin D → ℤ) → Fin D → ℝ)
    (mask : Option (Fin B → Fin D → ℝ)) (x : Fin B → Fin D → ℤ) (idx : Fin B → Fin k → Fin D) (s : LBState) :
    Spec.ReportsAcceptance x (fun b => gwgPropose (x b) (idx b)) (fun u => (gwgBinaryStep mhTiny h f g mask x idx u s).1)
      (fun u => (gwgBinaryStep mhTiny h f g mask x idx u s).2.2) :=
  Rep.mh_reports _ x (fun b => gwgPropose (x b) (idx b)) id

/-- **C130 (adaptive GWG).** -/
theorem gwgAdaptive_acceptance {B D : ℕ} (hD : 0 < D) (target : ℝ) (h : ℝ → ℝ) (f : (Fin D → ℤ) → ℝ)
    (g : (Fin D → ℤ) → Fin D → ℝ) (mask : Option (Fin B → Fin D → ℝ)) (x : Fin B → Fin D → ℤ) (s : LBState)
    (idx : Fin B → Fin (numFlips D s.radius) → Fin D) :
    Spec.ReportsAcceptance x (fun b => gwgProposeAdaptive (x b) (gwgSelected (numFlips_pos hD s.radius) (idx b)))
      (fun u => (gwgAdaptiveStep hD target mhTiny h f g mask x s idx u).1)
      (fun u => (gwgAdaptiveStep hD target mhTiny h f g mask x s idx u).2.2) :=
  Rep.mh_reports _ x (fun b => gwgProposeAdaptive (x b) (gwgSelected (numFlips_pos hD s.radius) (idx b))) id

/-- **C130 (categorical GWG).** -/
theorem cgwg_acceptance {B D : ℕ} (h : ℝ → ℝ) (C : ℕ) (f : (Fin D → Fin C → ℝ) → ℝ)
    (g : (Fin D → Fin C → ℝ) → Fin D → Fin C → ℝ) (x : Fin B → Fin D → ℤ) (hx : ∀ b, x b ∈ Spec.validStates C D)
    (idx : Fin B → Fin (D * C)) (s : LBState) :
    Spec.ReportsAcceptance x (fun b => cgwgPropose (x b) (idx b)) (fun u => (cgwgStep mhTiny h C f g x idx u s).1)
      (fun u => (cgwgStep mhTiny h C f g x idx u s).2.2) :=
  Rep.mh_reports' _ (fun b => oneHotRow C (x b))
    (fun b => oneHotRow C (cgwgPropose (argmaxRow (oneHotRow C (x b))) (idx b))) argmaxRow
    (fun b => argmaxRow_oneHotRow (hx b)) fun b => by
      rw [argmaxRow_oneHotRow (hx b), argmaxRow_oneHotRow (cgwgPropose_valid (hx b) _)]

/-- **C130 (path auxiliary, binary).** -/
theorem pafs_acceptance {B D k : ℕ} (calls : ℕ) (h : ℝ → ℝ) (f : (Fin D → ℤ) → ℝ) (lr : (Fin D → ℤ) → Fin D → ℝ)
    (mask : Option (Fin B → Fin D → ℝ)) (x : Fin B → Fin D → ℤ) (idx : Fin B → Fin k → Fin D) (s : LBState) :
    Spec.ReportsAcceptance x (fun b => gwgPropose (x b) (idx b))
      (fun u => (pafsBinaryStep mhTiny calls h f lr mask x idx u s).1)
      (fun u => (pafsBinaryStep mhTiny calls h f lr mask x idx u s).2.2) :=
  Rep.mh_reports _ x (fun b => gwgPropose (x b) (idx b)) id

/-- **C130 (path auxiliary, binary, adaptive).** -/
theorem pafsAdaptive_acceptance {B D : ℕ} (target : ℝ) (calls : ℕ) (h : ℝ → ℝ) (f : (Fin D → ℤ) → ℝ)
    (lr : (Fin D → ℤ) → Fin D → ℝ) (mask : Option (Fin B → Fin D → ℝ)) (x : Fin B → Fin D → ℤ)
    (σ : Fin B → Equiv.Perm (Fin D)) (s : LBState) :
    Spec.ReportsAcceptance x (fun b => maskFlip (x b) (orderMask (numFlips D s.radius) (σ b)))
      (fun u => (pafsAdaptiveStep target mhTiny calls h f lr mask x σ u s).1)
      (fun u => (pafsAdaptiveStep target mhTiny calls h f lr mask x σ u s).2.2) :=
  Rep.mh_reports _ x (fun b => maskFlip (x b) (orderMask (numFlips D s.radius) (σ b))) id

/-- **C130 (path auxiliary, categorical).** -/
theorem pafsCateg_acceptance {B D k : ℕ} (calls : ℕ) (h : ℝ → ℝ) (C : ℕ) (f : (Fin D → Fin C → ℝ) → ℝ)
    (lr : (Fin D → Fin C → ℝ) → Fin D → Fin C → ℝ) (mask : Option (Fin B → Fin D → ℝ)) (x : Fin B → Fin D → ℤ)
    (hx : ∀ b, x b ∈ Spec.validStates C D) (idx : Fin B → Fin k → Fin D) (val : Fin B → Fin k → Fin C) (s : LBState) :
    Spec.ReportsAcceptance x (fun b => setVals (x b) (idx b) (val b))
      (fun u => (pafsCategStep mhTiny calls h C f lr mask x idx val u s).1)
      (fun u => (pafsCategStep mhTiny calls h C f lr mask x idx val u s).2.2) :=
  Rep.mh_reports' _ (fun b => oneHotRow C (x b)) (fun b => oneHotRow C (setVals (x b) (idx b) (val b))) argmaxRow
    (fun b => argmaxRow_oneHotRow (hx b)) fun b => argmaxRow_oneHotRow <| by
      rw [mem_validStates]
      intro j
      unfold setVals
      split
      · exact ⟨Int.natCast_nonneg _, by exact_mod_cast Fin.is_lt _⟩
      · exact mem_validStates.1 (hx b) j

/-- **C130 (path auxiliary, categorical, adaptive).** -/
theorem pafsCategAdaptive_acceptance {B D : ℕ} (target : ℝ) (calls : ℕ) (h : ℝ → ℝ) (C : ℕ)
    (f : (Fin D → Fin C → ℝ) → ℝ) (lr : (Fin D → Fin C → ℝ) → Fin D → Fin C → ℝ) (mask : Option (Fin B → Fin D → ℝ))
    (x : Fin B → Fin D → ℤ) (hx : ∀ b, x b ∈ Spec.validStates C D) (σ : Fin B → Equiv.Perm (Fin D))
    (v : Fin B → Fin D → Fin C) (s : LBState) :
    Spec.ReportsAcceptance x (fun b => maskSet (x b) (orderMask (numFlips D s.radius) (σ b)) (v b))
      (fun u => (pafsCategAdaptiveStep target mhTiny calls h C f lr mask x σ v u s).1)
      (fun u => (pafsCategAdaptiveStep target mhTiny calls h C f lr mask x σ v u s).2.2) :=
  Rep.mh_reports' _ (fun b => oneHotRow C (x b))
    (fun b => oneHotRow C (maskSet (x b) (orderMask (numFlips D s.radius) (σ b)) (v b))) argmaxRow
    (fun b => argmaxRow_oneHotRow (hx b)) fun b => argmaxRow_oneHotRow <| by
      rw [mem_validStates]
      intro j
      unfold maskSet
      split
      · exact ⟨Int.natCast_nonneg _, by exact_mod_cast Fin.is_lt _⟩
      · exact mem_validStates.1 (hx b) j

/-- What DMALA and DLMC report: the rate, unless the step size is NaN, when the report is NaN and every chain stays. -/
def Spec.ReportsOrNaN {B : ℕ} {X : Type*} (nan : Prop) (cur new : Fin B → X) (out : (Fin B → ℝ) → Fin B → X)
    (acc : (Fin B → ℝ) → Option ℝ) : Prop :=
  (nan → ∀ u, out u = cur ∧ acc u = none) ∧
    (¬ nan → (∀ u, acc u ≠ none) ∧ Spec.ReportsAcceptance cur new out fun u => (acc u).getD 0)

/-- **C130 (binary DMALA).** -/
theorem dmala_acceptance {B D : ℕ} (c : DCfg) (eps : ℝ) (h : ℝ → ℝ) (f : (Fin D → ℤ) → ℝ) (g : (Fin D → ℤ) → Fin D → ℝ)
    (x : Fin B → Fin D → ℤ) (flip : Fin B → Fin D → Bool) (s : DState) :
    Spec.ReportsOrNaN (dmalaLogTau c s (dmalaReset fun b j => h (deltaBinary g (x b) j)) = none) x
      (fun b => flipSites (x b) (flip b)) (fun u => (dmalaBinaryStep c mhTiny eps h f g x flip u s).1)
      (fun u => (dmalaBinaryStep c mhTiny eps h f g x flip u s).2.2) := by
  unfold dmalaBinaryStep
  cases ht : dmalaLogTau c s (dmalaReset fun b j => h (deltaBinary g (x b) j)) with
  | none => exact ⟨fun _ u => ⟨by simp only [ht], by simp only [ht]⟩, fun hn => absurd rfl hn⟩
  | some tau =>
    refine ⟨fun hn => (by cases hn), fun _ => ?_⟩
    simp only [ht]
    exact ⟨fun _ => by simp, Rep.mh_reports _ x (fun b => flipSites (x b) (flip b)) id⟩

/-- **C130 (categorical DMALA).** -/
theorem dmalaCateg_acceptance {B D : ℕ} (c : DCfg) (h : ℝ → ℝ) (C : ℕ) (f : (Fin D → Fin C → ℝ) → ℝ)
    (g : (Fin D → Fin C → ℝ) → Fin D → Fin C → ℝ) (x : Fin B → Fin D → ℤ) (hx : ∀ b, x b ∈ Spec.validStates C D)
    (v : Fin B → Fin D → Fin C) (s : DState) :
    Spec.ReportsOrNaN (dmalaLogTau c s
        (dmalaReset (I := Fin D × Fin C) fun b i => h (deltaCateg g (oneHotRow C (x b)) i.1 i.2)) = none)
      x (fun b => categRow (v b)) (fun u => (dmalaCategStep c mhTiny h C f g x v u s).1)
      (fun u => (dmalaCategStep c mhTiny h C f g x v u s).2.2) := by
  unfold dmalaCategStep
  cases ht : dmalaLogTau c s
      (dmalaReset (I := Fin D × Fin C) fun b i => h (deltaCateg g (oneHotRow C (x b)) i.1 i.2)) with
  | none =>
    refine ⟨fun _ u => ⟨?_, by simp only [ht]⟩, fun hn => absurd rfl hn⟩
    simp only [ht]
    exact funext fun b => argmaxRow_oneHotRow (hx b)
  | some tau =>
    refine ⟨fun hn => (by cases hn), fun _ => ?_⟩
    simp only [ht]
    refine ⟨fun _ => by simp, Rep.mh_reports' _ (fun b => oneHotRow C (x b)) (fun b => oneHotRow C (categRow (v b)))
      argmaxRow (fun b => argmaxRow_oneHotRow (hx b)) fun b => argmaxRow_oneHotRow ?_⟩
    rw [mem_validStates]
    exact fun j => ⟨Int.natCast_nonneg _, Int.ofNat_lt.2 (v b j).is_lt⟩

/-- **C130 (binary DLMC).** -/
theorem dlmc_acceptance {B D : ℕ} (c : DCfg) (eps : ℝ) (h : ℝ → ℝ) (f : (Fin D → ℤ) → ℝ) (g : (Fin D → ℤ) → Fin D → ℝ)
    (x : Fin B → Fin D → ℤ) (flip : Fin B → Fin D → Bool) (s : DState)
    (hs : c.solver = "interpolate" ∨ c.solver = "euler_forward") :
    ∃ step : (Fin B → ℝ) → (Fin B → Fin D → ℤ) × DState × Option ℝ,
      (∀ u, dlmcBinaryStep c mhTiny eps h f g x flip u s = .ok (step u)) ∧
      Spec.ReportsOrNaN (dlmcLogTau c s (dlmcReset c fun b j => h (deltaBinary g (x b) j)) = none) x
        (fun b => flipSites (x b) (flip b)) (fun u => (step u).1) (fun u => (step u).2.2) := by
  unfold dlmcBinaryStep
  have hsol : ¬ (c.solver ≠ "interpolate" ∧ c.solver ≠ "euler_forward") := by tauto
  simp only [if_neg hsol]
  cases ht : dlmcLogTau c s (dlmcReset c fun b j => h (deltaBinary g (x b) j)) with
  | none =>
    simp only
    exact ⟨_, fun _ => rfl, fun _ u => ⟨rfl, rfl⟩, fun hn => absurd trivial hn⟩
  | some tau =>
    simp only
    refine ⟨_, fun _ => rfl, fun hn => (by cases hn), fun _ => ⟨fun _ => by simp, ?_⟩⟩
    exact Rep.mh_reports _ x (fun b => flipSites (x b) (flip b)) id

/-- **C130 (categorical DLMC).** -/
theorem dlmcCateg_acceptance {B D : ℕ} (c : DCfg) (h : ℝ → ℝ) (C : ℕ) (f : (Fin D → Fin C → ℝ) → ℝ)
    (g : (Fin D → Fin C → ℝ) → Fin D → Fin C → ℝ) (x : Fin B → Fin D → ℤ) (hx : ∀ b, x b ∈ Spec.validStates C D)
    (v : Fin B → Fin D → Fin C) (s : DState) (hs : c.solver = "interpolate" ∨ c.solver = "euler_forward") :
    ∃ step : (Fin B → ℝ) → (Fin B → Fin D → ℤ) × DState × Option ℝ,
      (∀ u, dlmcCategStep c mhTiny h C f g x v u s = .ok (step u)) ∧
      Spec.ReportsOrNaN (dlmcLogTau c s
          (dlmcReset c (I := Fin D × Fin C) fun b i => h (deltaCateg g (oneHotRow C (x b)) i.1 i.2)) = none) x
        (fun b => categRow (v b)) (fun u => (step u).1) (fun u => (step u).2.2) := by
  unfold dlmcCategStep
  have hsol : ¬ (c.solver ≠ "interpolate" ∧ c.solver ≠ "euler_forward") := by tauto
  simp only [if_neg hsol]
  cases ht : dlmcLogTau c s
      (dlmcReset c (I := Fin D × Fin C) fun b i => h (deltaCateg g (oneHotRow C (x b)) i.1 i.2)) with
  | none =>
    simp only
    exact ⟨_, fun _ => rfl, fun _ u => ⟨funext fun b => argmaxRow_oneHotRow (hx b), rfl⟩, fun hn => absurd trivial hn⟩
  | some tau =>
    simp only
    refine ⟨_, fun _ => rfl, fun hn => (by cases hn), fun _ => ⟨fun _ => by simp, ?_⟩⟩
    refine Rep.mh_reports' _ (fun b => oneHotRow C (x b)) (fun b => oneHotRow C (categRow (v b)))
      argmaxRow (fun b => argmaxRow_oneHotRow (hx b)) fun b => argmaxRow_oneHotRow ?_
    rw [mem_validStates]
    exact fun j => ⟨Int.natCast_nonneg _, Int.ofNat_lt.2 (v b j).is_lt⟩

/-- **C130 (resampling).** Gibbs, block Gibbs and Hamming ball always report one. -/
theorem resampling_reports {B D : ℕ} (C b : ℕ) (x : Fin B → Fin D → ℤ) (v : Fin B → Fin C) (s : GibbsState)
    (sel : Fin B → Fin (categoriesIter C b).length) (t : BlockState) (rad : Fin 2)
    (d : Fin B → Fin b × Fin (C - 1) × Fin (b * (C - 1) + 1)) :
    (gibbsStep C x v s).2.2 = 1 ∧ (blockGibbsStep C b x sel t).2.2 = 1 ∧ (hbStep C b x rad d t).2.2 = 1 :=
  ⟨rfl, rfl, rfl⟩

/-- **C130 (adaptation).** The adaptive samplers move their step size by the reported rate minus the target. -/
theorem adapt_reported {B D : ℕ} (hD : 0 < D) (target : ℝ) (h : ℝ → ℝ) (f : (Fin D → ℤ) → ℝ)
    (g lr : (Fin D → ℤ) → Fin D → ℝ) (mask : Option (Fin B → Fin D → ℝ)) (x : Fin B → Fin D → ℤ) (u : Fin B → ℝ) :
    (∀ C (d : Fin B → RWDraw C D) s, let r := rwStep true target mhTiny f C x d u s
      r.2.1.radius = min (max (s.radius + (r.2.2 - target)) 1) D) ∧
    (∀ (s : LBState) idx, let r := gwgAdaptiveStep hD target mhTiny h f g mask x s idx u
      r.2.1.radius = min (max (s.radius + (r.2.2 - target)) 1) D) ∧
    (∀ (s : LBState) calls σ, let r := pafsAdaptiveStep target mhTiny calls h f lr mask x σ u s
      r.2.1.radius = min (max (s.radius + (r.2.2 - target)) 1) D) := by
  refine ⟨fun C d s => ?_, fun s idx => ?_, fun s calls σ => ?_⟩
  · simp only [rwStep, if_true, rwSelectAdaptive, Rep.mean_exp_clip, clip, add_sub_assoc]
  · simp only [gwgAdaptiveStep, adaptRadius, Rep.mean_exp_clip, clip, add_sub_assoc]
  · simp only [pafsAdaptiveStep, pafsSelectState, if_true, adaptRadius, Rep.mean_exp_clip, clip, add_sub_assoc]

/-- **C130 (adaptation, categorical path auxiliary).** -/
theorem adapt_reported_categ {B D : ℕ} (target : ℝ) (calls : ℕ) (h : ℝ → ℝ) (C : ℕ) (f : (Fin D → Fin C → ℝ) → ℝ)
    (lr : (Fin D → Fin C → ℝ) → Fin D → Fin C → ℝ) (mask : Option (Fin B → Fin D → ℝ)) (x : Fin B → Fin D → ℤ)
    (σ : Fin B → Equiv.Perm (Fin D)) (v : Fin B → Fin D → Fin C) (u : Fin B → ℝ) (s : LBState) :
    let r := pafsCategAdaptiveStep target mhTiny calls h C f lr mask x σ v u s
    r.2.1.radius = min (max (s.radius + (r.2.2 - target)) 1) D := by
  simp only [pafsCategAdaptiveStep, pafsSelectState, if_true, adaptRadius, Rep.mean_exp_clip, clip, add_sub_assoc]

/-- **C130 (adaptation, DMALA).** The step size is updated with the reported rate. -/
theorem dmala_adapt_reported {B D : ℕ} (c : DCfg) (eps : ℝ) (h : ℝ → ℝ) (f : (Fin D → ℤ) → ℝ)
    (g : (Fin D → ℤ) → Fin D → ℝ) (x : Fin B → Fin D → ℤ) (flip : Fin B → Fin D → Bool) (u : Fin B → ℝ) (s : DState) :
    let r := dmalaBinaryStep c mhTiny eps h f g x flip u s
    r.2.1 = dUpdate c { s with steps := s.steps + 1 } r.2.2 (dmalaReset fun b j => h (deltaBinary g (x b) j)) := by
  unfold dmalaBinaryStep
  cases ht : dmalaLogTau c s (dmalaReset fun b j => h (deltaBinary g (x b) j)) with
  | none => simp only [ht]; rfl
  | some tau => simp only [ht, dSelectState, dAcc, Rep.mean_exp_clip]

/-- Concrete case: one site, the flip of which halves the probability, is reported with rate `1/2`. -/
example : (rwStep (B := 1) (D := 1) false 0 mhTiny (fun z => Real.log (if z 0 = 1 then 1 / 2 else 1)) 2
    (fun _ _ => 0) (fun _ => (fun _ => true, fun _ => 0)) (fun _ => 0) rwInit).2.2 = 1 / 2 := by
  simp only [rwStep, rwPropose, meanB, clipMax]
  norm_num [Real.exp_neg, Real.exp_log]

end Discs
