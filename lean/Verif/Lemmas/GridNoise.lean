import Verif.Spec.Grid
import Verif.Spec.Noise
import Mathlib.MeasureTheory.Integral.Marginal
import Mathlib.MeasureTheory.Function.Floor
import Mathlib.MeasureTheory.Measure.Real

/-!
# Helper lemmas: functions of noise that is rounded down to a grid

If, along every coordinate, a function of the noise changes its value at no more than `T` points, rounding the noise down
to multiples of `1 / M` changes its value with probability at most `n T / M`.
-/

namespace Discs.Spec

open MeasureTheory Finset

variable {ι : Type*} [Fintype ι] [DecidableEq ι]

/-- Rounded noise. -/
noncomputable def roundDown (M : ℕ) (lo a : ℝ) : ℝ := max lo ((⌊(M : ℝ) * a⌋₊ : ℝ) / M)

theorem measurable_roundDown (M : ℕ) (lo : ℝ) : Measurable (roundDown M lo) := by
  unfold roundDown
  refine measurable_const.max (Measurable.div_const ?_ _)
  exact (measurable_from_nat (f := fun n : ℕ => (n : ℝ))).comp (Nat.measurable_floor.comp (measurable_const_mul (M : ℝ)))

theorem floor_roundDown {M : ℕ} (hM : 0 < M) {lo : ℝ} (h0 : 0 ≤ lo) (h1 : lo < 1 / M) (a : ℝ) :
    ⌊(M : ℝ) * roundDown M lo a⌋₊ = ⌊(M : ℝ) * a⌋₊ := by
  have hM' : (0 : ℝ) < M := by exact_mod_cast hM
  unfold roundDown
  rw [mul_max_of_nonneg _ _ hM'.le, mul_div_cancel₀ _ hM'.ne']
  have hlo : (M : ℝ) * lo < 1 := by rwa [lt_div_iff₀ hM', mul_comm] at h1
  rcases Nat.eq_zero_or_pos ⌊(M : ℝ) * a⌋₊ with h | h
  · rw [h, Nat.cast_zero, max_eq_left (by positivity), Nat.floor_eq_zero.2 hlo]
  · rw [max_eq_right, Nat.floor_natCast]
    have : (1 : ℝ) ≤ (⌊(M : ℝ) * a⌋₊ : ℝ) := by exact_mod_cast h
    linarith

theorem roundDown_mem {M : ℕ} (hM : 0 < M) {lo : ℝ} (h0 : 0 < lo) (h1 : lo < 1 / M) {a : ℝ} (ha : a ∈ Set.Ioo (0 : ℝ) 1) :
    roundDown M lo a ∈ Set.Ioo (0 : ℝ) 1 := by
  have hM' : (0 : ℝ) < M := by exact_mod_cast hM
  have hM1 : (1 : ℝ) ≤ M := by exact_mod_cast hM
  unfold roundDown
  refine ⟨lt_max_of_lt_left h0, max_lt ?_ ?_⟩
  · refine h1.trans_le ?_
    rw [div_le_one hM']; exact hM1
  · rw [div_lt_one hM']
    have := Nat.floor_le (mul_nonneg hM'.le ha.1.le)
    nlinarith [ha.2]

/-- A set all of whose sections along one coordinate are small is small. -/
theorem noise_section_le (j : ι) {A : Set (ι → ℝ)} (hA : MeasurableSet A) {c : ENNReal}
    (h : ∀ e, volume.restrict (Set.Ico (0 : ℝ) 1) {a | Function.update e j a ∈ A} ≤ c) : noise ι A ≤ c := by
  have : IsProbabilityMeasure (volume.restrict (Set.Ico (0 : ℝ) 1)) := ⟨by simp⟩
  unfold noise
  rw [← lintegral_indicator_one hA]
  have e := congrFun (lmarginal_univ (μ := fun _ : ι => volume.restrict (Set.Ico (0 : ℝ) 1)) (f := A.indicator 1)) fun _ => 0
  beta_reduce at e
  rw [← e, lmarginal_erase' _ (measurable_one.indicator hA) (mem_univ j)]
  calc _ ≤ (∫⋯∫⁻_univ.erase j, (fun _ => c) ∂fun _ : ι => volume.restrict (Set.Ico (0 : ℝ) 1)) fun _ => 0 := by
        refine lmarginal_mono (fun x => ?_) _
        refine le_trans (le_of_eq ?_) (h x)
        have hm : MeasurableSet {a | Function.update x j a ∈ A} := measurable_update x hA
        rw [← lintegral_indicator_one hm]
        rfl
    _ = c := by
        unfold lmarginal
        rw [lintegral_const]
        simp

variable {Y : Type*}

/-- Along every coordinate `F` changes at no more than `T` points of the open unit interval. -/
def FewChanges (T : ℕ) (F : (ι → ℝ) → Y) : Prop :=
  ∀ j z, ∃ B : Finset ℝ, B.card ≤ T ∧ ∀ a ∈ Set.Ioo (0 : ℝ) 1, ∀ b ∈ Set.Ioo (0 : ℝ) 1, a ≤ b →
    F (Function.update z j a) ≠ F (Function.update z j b) → ∃ θ ∈ B, a ≤ θ ∧ θ ≤ b

omit [Fintype ι] in
theorem section_le {M : ℕ} (hM : 0 < M) {lo : ℝ} (h0 : 0 < lo) (h1 : lo < 1 / M) {T : ℕ} {F : (ι → ℝ) → Y}
    (hF : FewChanges T F) (j : ι) (z : ι → ℝ) :
    volume.restrict (Set.Ico (0 : ℝ) 1)
      {a | F (Function.update z j (roundDown M lo a)) ≠ F (Function.update z j a)} ≤ ENNReal.ofReal (T / M) := by
  have hM' : (0 : ℝ) < M := by exact_mod_cast hM
  obtain ⟨B, hB, h⟩ := hF j z
  rw [Measure.restrict_apply' measurableSet_Ico]
  have hsub : {a | F (Function.update z j (roundDown M lo a)) ≠ F (Function.update z j a)} ∩ Set.Ico (0 : ℝ) 1 ⊆
      {0} ∪ ⋃ θ ∈ B, Set.Ico ((⌊(M : ℝ) * θ⌋₊ : ℝ) / M) (((⌊(M : ℝ) * θ⌋₊ : ℝ) + 1) / M) := by
    rintro a ⟨hne, ha0, ha1⟩
    rcases ha0.eq_or_lt with rfl | ha0
    · left; rfl
    right
    have ha : a ∈ Set.Ioo (0 : ℝ) 1 := ⟨ha0, ha1⟩
    have hr := roundDown_mem hM h0 h1 ha
    have hfl := floor_roundDown hM h0.le h1 a
    have hθ : ∃ θ ∈ B, ⌊(M : ℝ) * θ⌋₊ = ⌊(M : ℝ) * a⌋₊ := by
      rcases le_total (roundDown M lo a) a with hle | hle
      · obtain ⟨θ, hθ, hl, hu⟩ := h _ hr _ ha hle hne
        refine ⟨θ, hθ, le_antisymm (Nat.floor_le_floor (mul_le_mul_of_nonneg_left hu hM'.le)) ?_⟩
        rw [← hfl]
        exact Nat.floor_le_floor (mul_le_mul_of_nonneg_left hl hM'.le)
      · obtain ⟨θ, hθ, hl, hu⟩ := h _ ha _ hr hle hne.symm
        refine ⟨θ, hθ, le_antisymm ?_ (Nat.floor_le_floor (mul_le_mul_of_nonneg_left hl hM'.le))⟩
        rw [← hfl]
        exact Nat.floor_le_floor (mul_le_mul_of_nonneg_left hu hM'.le)
    obtain ⟨θ, hθ, he⟩ := hθ
    rw [Set.mem_iUnion₂]
    refine ⟨θ, hθ, ?_⟩
    rw [he, Set.mem_Ico, div_le_iff₀ hM', lt_div_iff₀ hM', mul_comm a]
    exact ⟨Nat.floor_le (by positivity), Nat.lt_floor_add_one _⟩
  refine (measure_mono hsub).trans ((measure_union_le _ _).trans ?_)
  rw [Real.volume_singleton, zero_add]
  refine (measure_biUnion_finset_le _ _).trans ?_
  have : ∀ θ ∈ B, volume (Set.Ico ((⌊(M : ℝ) * θ⌋₊ : ℝ) / M) (((⌊(M : ℝ) * θ⌋₊ : ℝ) + 1) / M)) = ENNReal.ofReal (1 / M) := by
    intro θ _
    rw [Real.volume_Ico]
    congr 1
    ring
  rw [Finset.sum_congr rfl this, Finset.sum_const, nsmul_eq_mul, ← ENNReal.ofReal_natCast,
    ← ENNReal.ofReal_mul (by positivity)]
  refine ENNReal.ofReal_le_ofReal ?_
  rw [mul_one_div]
  have : (B.card : ℝ) ≤ T := by exact_mod_cast hB
  gcongr

/-- Noise with the coordinates in `s` rounded. -/
noncomputable def partRound (M : ℕ) (lo : ℝ) (s : Finset ι) (e : ι → ℝ) : ι → ℝ :=
  fun i => if i ∈ s then roundDown M lo (e i) else e i

omit [Fintype ι] in
theorem measurable_partRound (M : ℕ) (lo : ℝ) (s : Finset ι) : Measurable (partRound M lo s) := by
  refine measurable_pi_lambda _ fun i => ?_
  unfold partRound
  by_cases h : i ∈ s
  · simp only [h, if_true]; exact (measurable_roundDown M lo).comp (measurable_pi_apply i)
  · simp only [h, if_false]; exact measurable_pi_apply i

/-- Rounding some coordinates rarely changes the value. -/
theorem partRound_le {M : ℕ} (hM : 0 < M) {lo : ℝ} (h0 : 0 < lo) (h1 : lo < 1 / M) {T : ℕ} [Countable Y] {F : (ι → ℝ) → Y}
    (hm : ∀ y, MeasurableSet {e | F e = y}) (hF : FewChanges T F) (s : Finset ι) :
    noise ι {e | F (partRound M lo s e) ≠ F e} ≤ s.card * ENNReal.ofReal (T / M) := by
  induction s using Finset.induction_on with
  | empty =>
    have : ∀ e : ι → ℝ, partRound M lo ∅ e = e := fun e => by funext i; simp [partRound]
    simp [this]
  | insert j s hj ih =>
    have hdiff : MeasurableSet {e | F (partRound M lo (insert j s) e) ≠ F (partRound M lo s e)} := by
      have : {e | F (partRound M lo (insert j s) e) ≠ F (partRound M lo s e)}ᶜ =
          ⋃ y, (partRound M lo (insert j s) ⁻¹' {e | F e = y}) ∩ (partRound M lo s ⁻¹' {e | F e = y}) := by
        ext e
        simp [eq_comm]
      rw [← MeasurableSet.compl_iff, this]
      exact .iUnion fun y => (measurable_partRound M lo _ (hm y)).inter (measurable_partRound M lo _ (hm y))
    have hstep : noise ι {e | F (partRound M lo (insert j s) e) ≠ F (partRound M lo s e)} ≤ ENNReal.ofReal (T / M) := by
      refine noise_section_le j hdiff fun e => ?_
      have hins : ∀ a, partRound M lo (insert j s) (Function.update e j a) =
          Function.update (partRound M lo s e) j (roundDown M lo a) := by
        intro a; funext i
        by_cases hi : i = j
        · subst hi; simp [partRound]
        · simp [partRound, hi]
      have hsame : ∀ a, partRound M lo s (Function.update e j a) = Function.update (partRound M lo s e) j a := by
        intro a; funext i
        by_cases hi : i = j
        · subst hi; simp [partRound, hj]
        · simp [partRound, hi]
      simp only [Set.mem_ofPred_eq, hins, hsame]
      exact section_le hM h0 h1 hF j _
    calc noise ι {e | F (partRound M lo (insert j s) e) ≠ F e}
        ≤ noise ι ({e | F (partRound M lo (insert j s) e) ≠ F (partRound M lo s e)} ∪ {e | F (partRound M lo s e) ≠ F e}) := by
          refine measure_mono fun e he => ?_
          by_cases h : F (partRound M lo (insert j s) e) = F (partRound M lo s e)
          · right; rw [Set.mem_ofPred_eq, ← h]; exact he
          · left; exact h
      _ ≤ ENNReal.ofReal (T / M) + s.card * ENNReal.ofReal (T / M) := (measure_union_le _ _).trans (add_le_add hstep ih)
      _ = _ := by rw [Finset.card_insert_of_notMem hj]; push_cast; ring

instance : IsProbabilityMeasure (noise ι) := by
  have : IsProbabilityMeasure (volume.restrict (Set.Ico (0 : ℝ) 1)) := ⟨by simp⟩
  unfold noise; infer_instance

/-- The grid law is the law of the rounded noise. -/
theorem gridLaw_eq {M : ℕ} (hM : 0 < M) (lo : ℝ) (F : (ι → ℝ) → Y) (y : Y) :
    gridLaw M lo F y = (noise ι {e | F (partRound M lo univ e) = y}).toReal := by
  classical
  have hM' : (0 : ℝ) < M := by exact_mod_cast hM
  have : NeZero M := ⟨hM.ne'⟩
  let κ : (ι → ℝ) → ι → Fin M := fun e i => Fin.ofNat M ⌊(M : ℝ) * e i⌋₊
  have hcell : ∀ k : Fin M, {a : ℝ | Fin.ofNat M ⌊(M : ℝ) * a⌋₊ = k} ∩ Set.Ico 0 1 =
      Set.Ico (((k : ℕ) : ℝ) / M) ((((k : ℕ) : ℝ) + 1) / M) := by
    intro k
    ext a
    rw [Set.mem_inter_iff, Set.mem_Ico, Set.mem_Ico, Set.mem_ofPred_eq, div_le_iff₀ hM', lt_div_iff₀ hM', mul_comm a]
    have hk : ((k : ℕ) : ℝ) + 1 ≤ M := by exact_mod_cast k.2
    constructor
    · rintro ⟨h, ha0, ha1⟩
      have hlt : ⌊(M : ℝ) * a⌋₊ < M := (Nat.floor_lt (by positivity)).2 (by nlinarith)
      have : ⌊(M : ℝ) * a⌋₊ = (k : ℕ) := by
        have := congrArg Fin.val h
        rwa [Fin.val_ofNat, Nat.mod_eq_of_lt hlt] at this
      rw [← this]
      exact ⟨Nat.floor_le (by positivity), Nat.lt_floor_add_one _⟩
    · rintro ⟨hl, hu⟩
      have ha0 : 0 ≤ a := by
        by_contra h
        have : (M : ℝ) * a < 0 := mul_neg_of_pos_of_neg hM' (not_le.1 h)
        have : (0 : ℝ) ≤ ((k : ℕ) : ℝ) := by positivity
        linarith
      have hf : ⌊(M : ℝ) * a⌋₊ = (k : ℕ) := (Nat.floor_eq_iff (by positivity)).2 ⟨hl, hu⟩
      refine ⟨Fin.ext ?_, ha0, ?_⟩
      · rw [Fin.val_ofNat, hf, Nat.mod_eq_of_lt k.2]
      · nlinarith
  have hm1 : ∀ k : Fin M, MeasurableSet {a : ℝ | Fin.ofNat M ⌊(M : ℝ) * a⌋₊ = k} := fun k =>
    (measurable_from_nat (f := fun n : ℕ => Fin.ofNat M n)).comp (Nat.measurable_floor.comp (measurable_const_mul (M : ℝ)))
      (measurableSet_singleton k)
  have hfib : ∀ k : ι → Fin M, κ ⁻¹' {k} = Set.univ.pi fun i => {a : ℝ | Fin.ofNat M ⌊(M : ℝ) * a⌋₊ = k i} := by
    intro k; ext e
    simp only [Set.mem_preimage, Set.mem_singleton_iff, Set.mem_univ_pi, Set.mem_ofPred_eq]
    exact ⟨fun h i => congrFun h i, fun h => funext h⟩
  have hprob : ∀ k : ι → Fin M, noise ι (κ ⁻¹' {k}) = ENNReal.ofReal (1 / (M : ℝ) ^ Fintype.card ι) := by
    intro k
    rw [hfib]
    unfold noise
    rw [Measure.pi_pi]
    have : ∀ i, volume.restrict (Set.Ico (0 : ℝ) 1) {a : ℝ | Fin.ofNat M ⌊(M : ℝ) * a⌋₊ = k i} = ENNReal.ofReal (1 / M) := by
      intro i
      rw [Measure.restrict_apply' measurableSet_Ico, hcell, Real.volume_Ico]
      congr 1
      ring
    rw [Finset.prod_congr rfl fun i _ => this i, Finset.prod_const, Finset.card_univ, ← ENNReal.ofReal_pow (by positivity),
      one_div_pow]
  have hcongr : noise ι {e | F (partRound M lo univ e) = y} =
      noise ι (κ ⁻¹' ↑(univ.filter fun k : ι → Fin M => F (fun i => max lo (((k i : ℕ) : ℝ) / M)) = y)) := by
    have hcube : ∀ᵐ e ∂noise ι, ∀ i, e i ∈ Set.Ico (0 : ℝ) 1 := by
      rw [ae_all_iff]
      intro i
      have : IsProbabilityMeasure (volume.restrict (Set.Ico (0 : ℝ) 1)) := ⟨by simp⟩
      exact (measurePreserving_eval (fun _ : ι => volume.restrict (Set.Ico (0 : ℝ) 1)) i).quasiMeasurePreserving.ae
        (ae_restrict_mem measurableSet_Ico)
    refine measure_congr ?_
    filter_upwards [hcube] with e he
    have : (fun i => max lo (((κ e i : ℕ) : ℝ) / M)) = partRound M lo univ e := by
      funext i
      have hlt : ⌊(M : ℝ) * e i⌋₊ < M := (Nat.floor_lt (mul_nonneg hM'.le (he i).1)).2 (by nlinarith [(he i).2])
      simp only [κ, partRound, mem_univ, if_true, roundDown, Fin.val_ofNat, Nat.mod_eq_of_lt hlt]
    refine propext ?_
    refine Iff.trans ?_ (Finset.mem_coe.trans mem_filter).symm
    rw [this]
    exact ⟨fun h => ⟨mem_univ _, h⟩, fun h => h.2⟩
  rw [hcongr, ← sum_measure_preimage_singleton _ fun k _ => by rw [hfib]; exact .univ_pi fun i => hm1 _]
  rw [Finset.sum_congr rfl fun k _ => hprob k, Finset.sum_const, nsmul_eq_mul, ENNReal.toReal_mul, ENNReal.toReal_natCast,
    ENNReal.toReal_ofReal (by positivity)]
  unfold gridLaw
  rw [mul_one_div]
  congr!

/-- Laws of a function of ideal and of rounded noise. -/
theorem gridLaw_close {M : ℕ} (hM : 0 < M) {lo : ℝ} (h0 : 0 < lo) (h1 : lo < 1 / M) {T : ℕ} [Countable Y] {F : (ι → ℝ) → Y}
    (hm : ∀ y, MeasurableSet {e | F e = y}) (hF : FewChanges T F) (S : Finset Y) :
    ∑ y ∈ S, |gridLaw M lo F y - (noise ι {e | F e = y}).toReal| ≤ 2 * (Fintype.card ι * T / M) := by
  set N := {e | F (partRound M lo univ e) ≠ F e} with hN
  have hA : ∀ y, MeasurableSet {e | F e = y} := hm
  have hB : ∀ y, MeasurableSet {e | F (partRound M lo univ e) = y} := fun y => measurable_partRound M lo univ (hm y)
  have hNm : MeasurableSet N := by
    have : Nᶜ = ⋃ y, {e | F (partRound M lo univ e) = y} ∩ {e | F e = y} := by
      ext e; simp [hN, eq_comm]
    rw [← MeasurableSet.compl_iff, this]
    exact .iUnion fun y => (hB y).inter (hA y)
  have hP : (noise ι).real N ≤ Fintype.card ι * T / M := by
    have := partRound_le hM h0 h1 hm hF univ
    have h2 := ENNReal.toReal_mono (by finiteness) this
    rw [ENNReal.toReal_mul, ENNReal.toReal_natCast, ENNReal.toReal_ofReal (by positivity), Finset.card_univ] at h2
    rw [mul_div_assoc]
    exact h2
  have hsum : ∀ G : (ι → ℝ) → Y, (∀ y, MeasurableSet {e | G e = y}) → ∑ y ∈ S, (noise ι).real ({e | G e = y} ∩ N) ≤ (noise ι).real N := by
    intro G hG
    rw [← measureReal_biUnion_finset]
    · refine measureReal_mono ?_
      intro e he
      simp only [Set.mem_iUnion] at he
      obtain ⟨_, _, h⟩ := he
      exact h.2
    · intro y _ y' _ hne
      rw [Function.onFun, Set.disjoint_left]
      rintro e ⟨h, -⟩ ⟨h', -⟩
      exact hne (h.symm.trans h')
    · exact fun y _ => (hG y).inter hNm
  have hpt : ∀ y, |gridLaw M lo F y - (noise ι {e | F e = y}).toReal| ≤
      (noise ι).real ({e | F (partRound M lo univ e) = y} ∩ N) + (noise ι).real ({e | F e = y} ∩ N) := by
    intro y
    rw [gridLaw_eq hM]
    change |(noise ι).real _ - (noise ι).real _| ≤ _
    have ea := measureReal_inter_add_sdiff (μ := noise ι) (s := {e | F e = y}) hNm
    have eb := measureReal_inter_add_sdiff (μ := noise ι) (s := {e | F (partRound M lo univ e) = y}) hNm
    have ed : {e | F (partRound M lo univ e) = y} \ N = {e | F e = y} \ N := by
      ext e
      simp only [Set.mem_sdiff, hN, Set.mem_ofPred_eq, not_not, ne_eq]
      exact ⟨fun ⟨h, h'⟩ => ⟨h'.symm.trans h, h'⟩, fun ⟨h, h'⟩ => ⟨h'.trans h, h'⟩⟩
    rw [ed] at eb
    have p1 := measureReal_nonneg (μ := noise ι) (s := {e | F e = y} ∩ N)
    have p2 := measureReal_nonneg (μ := noise ι) (s := {e | F (partRound M lo univ e) = y} ∩ N)
    rw [abs_le]
    constructor <;> linarith
  calc _ ≤ ∑ y ∈ S, ((noise ι).real ({e | F (partRound M lo univ e) = y} ∩ N) + (noise ι).real ({e | F e = y} ∩ N)) :=
        Finset.sum_le_sum fun y _ => hpt y
    _ ≤ _ := by
        rw [Finset.sum_add_distrib]
        have := hsum _ hB
        have := hsum _ hA
        linarith

end Discs.Spec
