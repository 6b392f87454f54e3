import Verif.Lemmas.Gumbel
import Verif.Lemmas.Markov
import Verif.Model.PathAuxNoise
import Verif.Props.MathUtil
import Verif.Props.PathAux

/-!
# Property C76: perturbing with Gumbel noise and sorting is drawing without replacement
-/

namespace Discs

open Finset Spec MeasureTheory

variable {D : ℕ}

theorem gumbel_lt_iff {a b u w : ℝ} (hu : u ∈ Set.Ioo (0 : ℝ) 1) (hw : w ∈ Set.Ioo (0 : ℝ) 1) :
    gumbel a u < gumbel b w ↔ u ^ (1 / Real.exp a) < w ^ (1 / Real.exp b) := by
  have key : ∀ {a u : ℝ}, u ∈ Set.Ioo (0 : ℝ) 1 →
      gumbel a u = -Real.log (-Real.log (u ^ (1 / Real.exp a))) ∧
        0 < -Real.log (u ^ (1 / Real.exp a)) := by
    intro a u hu
    have h1 : 0 < -Real.log u := by have := Real.log_neg hu.1 hu.2; linarith
    rw [Real.log_rpow hu.1]
    have h2 : -(1 / Real.exp a * Real.log u) = -Real.log u / Real.exp a := by ring
    rw [h2, Real.log_div h1.ne' (Real.exp_pos a).ne', Real.log_exp]
    exact ⟨by unfold gumbel; ring, by positivity⟩
  obtain ⟨e1, p1⟩ := key (a := a) hu
  obtain ⟨e2, p2⟩ := key (a := b) hw
  rw [e1, e2, neg_lt_neg_iff, Real.log_lt_log_iff p2 p1, neg_lt_neg_iff,
    Real.log_lt_log_iff (Real.rpow_pos_of_pos hu.1 _) (Real.rpow_pos_of_pos hw.1 _)]

theorem race_order {ι : Type*} [Fintype ι] [DecidableEq ι] {p : ι → ℝ} {x : ι → ℝ} (l : List ι) :
    ∀ {used : Finset ι} {v : ℝ}, Race p used l v x →
      (∀ j ∉ used, x j ^ (1 / p j) < v) ∧ (∀ i ∈ l, i ∉ used) ∧
      l.Pairwise (fun a b => x b ^ (1 / p b) < x a ^ (1 / p a)) ∧
      ∀ i ∈ l, ∀ j ∉ used, j ∉ l → x j ^ (1 / p j) < x i ^ (1 / p i) := by
  induction l with
  | nil => intro used v h; exact ⟨h, by simp, .nil, by simp⟩
  | cons i l ih =>
    rintro used v ⟨hi, hv, hr⟩
    obtain ⟨h1, h2, h3, h4⟩ := ih hr
    refine ⟨fun j hj => ?_, ?_, ?_, ?_⟩
    · by_cases hji : j = i
      · rw [hji]; exact hv
      · exact (h1 j (by simp [hji, hj])).trans hv
    · intro a ha
      rcases List.mem_cons.1 ha with rfl | ha
      · exact hi
      · exact fun hu => h2 a ha (by simp [hu])
    · exact List.pairwise_cons.2 ⟨fun a ha => h1 a (h2 a ha), h3⟩
    · intro a ha j hj hjl
      rw [List.mem_cons, not_or] at hjl
      have hj' : j ∉ insert i used := by simp [hjl.1, hj]
      rcases List.mem_cons.1 ha with rfl | ha
      · exact h1 j hj'
      · exact h4 a ha j hj' hjl.2

/-- A strictly decreasing list above everything else is the result of `top_k`. -/
theorem topK_of_order {n : ℕ} {g : Fin n → ℝ} {l : List (Fin n)} (h1 : l.Pairwise fun a b => g b < g a)
    (h2 : ∀ i ∈ l, ∀ j ∉ l, g j < g i) (hl : l.length ≤ n) : topK g l.length = l := by
  classical
  obtain ⟨t1, t2, t3, t4⟩ := topK_spec g hl
  have hnd : l.Nodup := h1.imp fun h e => by rw [e] at h; exact lt_irrefl _ h
  have hsub : l ⊆ topK g l.length := by
    intro i hi
    by_contra hni
    have : ∃ j ∈ topK g l.length, j ∉ l := by
      by_contra hno
      push Not at hno
      have hss : (topK g l.length).toFinset ⊂ l.toFinset := by
        refine Finset.ssubset_iff_subset_ne.2 ⟨fun j hj => by simpa using hno j (by simpa using hj), ?_⟩
        intro e
        have : i ∈ (topK g l.length).toFinset := by rw [e]; simpa using hi
        exact hni (by simpa using this)
      have := Finset.card_lt_card hss
      rw [List.toFinset_card_of_nodup t1, List.toFinset_card_of_nodup hnd, t2] at this
      exact lt_irrefl _ this
    obtain ⟨j, hj, hjl⟩ := this
    exact absurd (h2 i hi j hjl) (not_lt.2 (t4 j hj i hni))
  have hperm : List.Perm l (topK g l.length) :=
    (hnd.subperm hsub).perm_of_length_le t2.le
  refine (List.Perm.eq_of_pairwise (le := fun a b => g b ≤ g a) (fun a b ha hb hab hba => ?_)
    t3 (h1.imp le_of_lt) hperm.symm)
  have : Std.Symm fun a b => g a ≠ g b := ⟨fun _ _ h => h.symm⟩
  have hinj := List.Pairwise.forall (h1.imp fun h => h.ne')
  by_contra hne
  exact hinj (hperm.symm.subset ha) hb hne (le_antisymm hba hab)

/-! ### Probabilities -/

instance : IsProbabilityMeasure (volume.restrict (Set.Ico (0 : ℝ) 1)) :=
  ⟨by rw [Measure.restrict_apply_univ, Real.volume_Ico]; simp⟩

instance (ι : Type*) [Fintype ι] : IsProbabilityMeasure (noise ι) := by
  unfold noise; infer_instance

theorem noise_cube (ι : Type*) [Fintype ι] : ∀ᵐ e ∂noise ι, e ∈ Set.univ.pi fun _ : ι => Set.Ioo (0 : ℝ) 1 := by
  have : noise ι = (Measure.pi fun _ : ι => volume).restrict (Set.univ.pi fun _ => Set.Ioo (0 : ℝ) 1) := by
    rw [Measure.restrict_pi_pi, noise_eq]
  rw [this]
  exact ae_restrict_mem (.univ_pi fun _ => measurableSet_Ioo)

/-- The noise for which the best perturbed scores are those of `l`, in this order, without ties. -/
def raceSet (lp : Fin D → ℝ) (l : List (Fin D)) : Set (Fin D → ℝ) :=
  {e | Race (fun j => Real.exp (lp j)) ∅ l 1 e} ∩ Set.univ.pi fun _ => Set.Ioo (0 : ℝ) 1

theorem measurableSet_raceSet (lp : Fin D → ℝ) (l : List (Fin D)) : MeasurableSet (raceSet lp l) :=
  (measurableSet_race _ l ∅ (fun _ => 1) measurable_const).inter (.univ_pi fun _ => measurableSet_Ioo)

theorem noise_raceSet (lp : Fin D → ℝ) (l : List (Fin D)) :
    noise (Fin D) (raceSet lp l) = ENNReal.ofReal (seqDraw (fun j => Real.exp (lp j)) ∅ l) := by
  rw [← race_total (fun j => Real.exp_pos (lp j)) l]
  refine measure_congr ?_
  filter_upwards [noise_cube (Fin D)] with e he
  exact propext ⟨fun h => h.1, fun h => ⟨h, he⟩⟩

theorem raceSet_order {lp e : Fin D → ℝ} {l : List (Fin D)} (he : e ∈ raceSet lp l) :
    l.Pairwise (fun a b => perturbed lp e b < perturbed lp e a) ∧
      ∀ i ∈ l, ∀ j ∉ l, perturbed lp e j < perturbed lp e i := by
  obtain ⟨hr, hc⟩ := he
  obtain ⟨-, -, h3, h4⟩ := race_order l hr
  have hc' : ∀ j, e j ∈ Set.Ioo (0 : ℝ) 1 := fun j => hc j (Set.mem_univ j)
  exact ⟨h3.imp fun h => (gumbel_lt_iff (hc' _) (hc' _)).2 h,
    fun i hi j hj => (gumbel_lt_iff (hc' _) (hc' _)).2 (h4 i hi j (by simp) hj)⟩

theorem raceSet_topK {lp e : Fin D → ℝ} {l : List (Fin D)} (he : e ∈ raceSet lp l) (hl : l.length ≤ D) :
    topK (perturbed lp e) l.length = l :=
  topK_of_order (raceSet_order he).1 (raceSet_order he).2 hl

theorem raceSet_disjoint {lp : Fin D → ℝ} {l l' : List (Fin D)} (hl : l.length ≤ D)
    (hll : l.length = l'.length) (hne : l ≠ l') : Disjoint (raceSet lp l) (raceSet lp l') := by
  rw [Set.disjoint_left]
  intro e h1 h2
  have := raceSet_topK h2 (hll ▸ hl)
  rw [← hll, raceSet_topK h1 hl] at this
  exact hne this

/-- Almost all noise decides the race: if the sequences `l ω` have total probability one. -/
theorem raceSet_full {Ω : Type*} [Fintype Ω] (lp : Fin D → ℝ) (l : Ω → List (Fin D)) {k : ℕ} (hk : k ≤ D)
    (hlen : ∀ ω, (l ω).length = k) (hinj : Function.Injective l)
    (htot : ∑ ω, seqDraw (fun j => Real.exp (lp j)) ∅ (l ω) = 1) :
    noise (Fin D) (⋃ ω, raceSet lp (l ω))ᶜ = 0 := by
  have hm := fun ω => measurableSet_raceSet lp (l ω)
  rw [prob_compl_eq_zero_iff (.iUnion hm), measure_iUnion _ hm, tsum_fintype]
  · simp only [noise_raceSet]
    rw [← ENNReal.ofReal_sum_of_nonneg
      (fun ω _ => seqDraw_nonneg (fun j => (Real.exp_pos _).le) _ _), htot, ENNReal.ofReal_one]
  · intro ω ω' hne
    exact raceSet_disjoint (by rw [hlen]; exact hk) (by rw [hlen, hlen]) (hinj.ne hne)

/-- **C76.** The indices returned by Gumbel perturbation and `top_k` have the law of draws one after
another without replacement, with probabilities proportional to `exp log_prob`. -/
theorem gumbel_topK {k : ℕ} (hk : k ≤ D) (lp : Fin D → ℝ) (idx : Fin k → Fin D) :
    noise (Fin D) {e | topK (fun j => gumbel (lp j) (e j)) k = List.ofFn idx} =
      ENNReal.ofReal (seqDraw (fun j => Real.exp (lp j)) ∅ (List.ofFn idx)) := by
  rw [← noise_raceSet]
  have hfull := raceSet_full lp (fun idx : Fin k → Fin D => List.ofFn idx) hk (fun _ => List.length_ofFn)
    List.ofFn_injective (seqDraw_total hk fun j => Real.exp_pos (lp j))
  refine measure_congr ?_
  filter_upwards [compl_mem_ae_iff.2 hfull] with e he
  rw [compl_compl, Set.mem_iUnion] at he
  obtain ⟨idx', he'⟩ := he
  have h' : topK (fun j => gumbel (lp j) (e j)) k = List.ofFn idx' := by
    have := raceSet_topK he' (by rw [List.length_ofFn]; exact hk)
    rwa [List.length_ofFn] at this
  refine propext ⟨fun h => ?_, fun h => ?_⟩
  · have : idx = idx' := List.ofFn_injective (h.symm.trans h')
    rw [this]; exact he'
  · have := raceSet_topK (l := List.ofFn idx) h (by rw [List.length_ofFn]; exact hk)
    rwa [List.length_ofFn] at this

/-- **C76 (one draw).** The best perturbed score is that of `i` with probability `softmax`. -/
theorem gumbel_max (hD : 0 < D) (logits : Fin D → ℝ) (i : Fin D) :
    noise (Fin D) {e | topK (fun j => gumbel (logits j) (e j)) 1 = [i]} =
      ENNReal.ofReal (softmax logits i) := by
  have := gumbel_topK (k := 1) (by omega) logits fun _ => i
  simp only [List.ofFn_succ, List.ofFn_zero, seqDraw, Finset.notMem_empty, if_false, mul_one,
    sdiff_empty] at this
  exact this

/-- From noise to finite draws: if almost all noise lies in disjoint sets on which the step is the step with
a finite draw, the law is that of the finite draws. -/
theorem noiseLaw_eq_lawU {Ω X : Type*} [Fintype Ω] {f : (Fin D → ℝ) → ℝ → X} {r : Ω → ℝ → X} {y : X}
    {A : Ω → Set (Fin D → ℝ)} (hA : ∀ ω, MeasurableSet (A ω))
    (hd : Pairwise (Function.onFun Disjoint A)) (hfull : noise (Fin D) (⋃ ω, A ω)ᶜ = 0)
    (hf : ∀ ω, ∀ e ∈ A ω, ∀ u, f e u = r ω u) (hm : ∀ ω, MeasurableSet {u | r ω u = y}) :
    noiseLaw f y = lawU (fun ω => (noise (Fin D) (A ω)).toReal) r y := by
  unfold noiseLaw lawU
  have hN : ((noise (Fin D)).prod (volume.restrict (Set.Ico (0 : ℝ) 1))) ((⋃ ω, A ω)ᶜ ×ˢ Set.univ) = 0 := by
    rw [Measure.prod_prod, hfull, zero_mul]
  have hae : ({w | f w.1 w.2 = y} : Set ((Fin D → ℝ) × ℝ)) =ᵐ[(noise (Fin D)).prod
      (volume.restrict (Set.Ico (0 : ℝ) 1))] ⋃ ω, A ω ×ˢ {u | r ω u = y} := by
    filter_upwards [compl_mem_ae_iff.2 hN] with w hw
    have hw1 : ∃ ω, w.1 ∈ A ω := by
      by_contra hno
      exact hw ⟨by simpa using hno, Set.mem_univ _⟩
    obtain ⟨ω, hω⟩ := hw1
    refine propext ⟨fun h => ?_, fun h => ?_⟩
    · exact Set.mem_iUnion.2 ⟨ω, hω, (hf ω _ hω _).symm.trans h⟩
    · obtain ⟨ω', h1, h2⟩ := Set.mem_iUnion.1 h
      exact (hf ω' _ h1 _).trans h2
  rw [measure_congr hae, measure_iUnion, tsum_fintype, ENNReal.toReal_sum]
  · refine Finset.sum_congr rfl fun ω _ => ?_
    rw [Measure.prod_prod, ENNReal.toReal_mul, Measure.restrict_apply (hm ω)]
    congr 3
    ext u; exact and_comm
  · intro ω _; exact measure_ne_top _ _
  · intro ω ω' hne
    exact Set.disjoint_left.2 fun w h1 h2 => Set.disjoint_left.1 (hd hne) h1.1 h2.1
  · exact fun ω => (hA ω).prod (hm ω)

theorem measurableSet_mh {X : Type*} (tiny la : ℝ) (x y z : X) :
    MeasurableSet {u : ℝ | (mhStep tiny (fun _ : Fin 1 => u) (fun _ => la) (fun _ => x) (fun _ => y)).1 0 = z} := by
  have h1 : MeasurableSet {u : ℝ | Real.log (u + tiny) < la} :=
    measurableSet_lt (Real.measurable_log.comp (measurable_id.add_const _)) measurable_const
  by_cases hx : x = z <;> by_cases hy : y = z
  · convert MeasurableSet.univ using 1
    ext u; simp [mhStep, hx, hy]
  · convert h1.compl using 1
    ext u; simp [mhStep, bernoulliLogp, hx, hy]
  · convert h1 using 1
    ext u; simp [mhStep, bernoulliLogp, hx, hy]
  · convert MeasurableSet.empty using 1
    ext u
    by_cases h : Real.log (u + tiny) < la
    · simp [mhStep, bernoulliLogp, h, hy]
    · simp [mhStep, bernoulliLogp, h, hx]

/-- **C76 (path-auxiliary, fixed number of flips).** The transition probabilities computed from uniform noise
are those of the draw model. -/
theorem pafsBinary_from_noise {k : ℕ} (hk : k ≤ D) (tiny : ℝ) (h : ℝ → ℝ) (f : (Fin D → ℤ) → ℝ)
    (lr : (Fin D → ℤ) → Fin D → ℝ) (mask : Option (Fin D → ℝ)) (s : LBState) (x y : Fin D → ℤ) :
    pafsBinaryNoiseKernel hk tiny h f lr mask s x y = pafsBinaryKernel k tiny h f lr mask s x y := by
  have hmask : (mask.map fun m (_ : Fin 1) => m).map (· 0) = mask := by cases mask <;> rfl
  unfold pafsBinaryNoiseKernel pafsBinaryKernel
  have hrace := fun idx : Fin k → Fin D => noise_raceSet (pafsLogProb h lr mask x) (List.ofFn idx)
  rw [noiseLaw_eq_lawU (Ω := Fin k → Fin D) (A := fun idx => raceSet (pafsLogProb h lr mask x) (List.ofFn idx))
    (r := fun idx u => (pafsBinaryStep tiny 4 h f lr (mask.map fun m (_ : Fin 1) => m) (fun _ => x)
      (fun _ => idx) (fun _ => u) s).1 0) (fun idx => measurableSet_raceSet _ _)]
  · simp only [hrace, ENNReal.toReal_ofReal (seqDraw_nonneg (fun j => (Real.exp_pos _).le) _ _)]
    rfl
  · intro i i' hne
    exact raceSet_disjoint (by rw [List.length_ofFn]; exact hk) (by rw [List.length_ofFn, List.length_ofFn])
      (List.ofFn_injective.ne hne)
  · exact raceSet_full _ _ hk (fun _ => List.length_ofFn) List.ofFn_injective
      (seqDraw_total hk fun j => Real.exp_pos _)
  · intro idx e he u
    have htop : topK (perturbed (pafsLogProb h lr mask x) e) k = List.ofFn idx := by
      have := raceSet_topK he (by rw [List.length_ofFn]; exact hk)
      rwa [List.length_ofFn] at this
    have : (fun _ : Fin 1 => topKArr hk (perturbed (pafsLogProb h lr
        ((mask.map fun m (_ : Fin 1) => m).map (· 0)) x) e)) = fun _ => idx := by
      funext _ i
      rw [hmask]
      unfold topKArr
      simp only [htop, List.getElem_ofFn]
    unfold pafsBinaryNoiseStep
    rw [← this]
    congr 3
  · intro idx
    exact measurableSet_mh _ _ _ _ _

/-! ### Adaptive: mask, forward and backward scores from the perturbed scores -/

theorem scatterSet_perm (σ : Equiv.Perm (Fin D)) (a : Fin D → ℝ) (j : Fin D) :
    scatterSet σ a j = a (σ.symm j) := by
  unfold scatterSet
  have key : ∀ (l : List (Fin D)) (acc : Fin D → ℝ), l.Nodup →
      l.foldl (fun acc i => Function.update acc (σ i) (a i)) acc j =
        if σ.symm j ∈ l then a (σ.symm j) else acc j := by
    intro l
    induction l with
    | nil => intro acc _; simp
    | cons i l ih =>
      intro acc hnd
      rw [List.foldl_cons, ih _ (List.nodup_cons.1 hnd).2]
      by_cases h : σ.symm j = i
      · subst h
        simp [(List.nodup_cons.1 hnd).1]
      · have : j ≠ σ i := fun e => h (by rw [e, Equiv.symm_apply_apply])
        simp [h, Function.update_of_ne this]
  rw [key _ _ (List.nodup_finRange D), if_pos (List.mem_finRange _)]

section order

variable {g : Fin D → ℝ} {σ : Equiv.Perm (Fin D)}

theorem topKArr_full (ht : topK g D = List.ofFn σ) : topKArr le_rfl g = σ := by
  funext i
  unfold topKArr
  simp only [ht, List.getElem_ofFn]

theorem argsort_eq_reverse (hg : Function.Injective g) : argsort g = (topK g D).reverse := by
  classical
  obtain ⟨h1, h2, h3, h4⟩ := topK_full g
  refine List.Perm.eq_of_pairwise (le := fun a b => g a ≤ g b)
    (fun a b _ _ hab hba => hg (le_antisymm hab hba)) ?_ ?_ ?_
  · have := List.pairwise_mergeSort (le := fun a b : Fin D => decide (g a ≤ g b))
      (l := List.finRange D) (fun a b c h1 h2 => by simp at *; exact h1.trans h2)
      (fun a b => by simpa using le_total _ _)
    simpa [argsort] using this
  · rw [List.pairwise_reverse]; exact h3
  · refine (List.mergeSort_perm _ _).trans (List.Perm.trans ?_ (List.reverse_perm _).symm)
    rw [List.perm_ext_iff_of_nodup (List.nodup_finRange D) h1]
    intro a; simp [h4 a]

theorem argsortArr_eq (hg : Function.Injective g) (ht : topK g D = List.ofFn σ) :
    argsortArr g = fun i => σ i.rev := by
  funext i
  unfold argsortArr
  simp only [argsort_eq_reverse hg, ht, List.getElem_reverse, List.length_ofFn, List.getElem_ofFn]
  congr 1
  ext
  simp [Fin.val_rev]
  omega

theorem selectedMask_order (hg : Function.Injective g) (ht : topK g D = List.ofFn σ) {ns : ℕ}
    (h1 : 1 ≤ ns) (h2 : ns ≤ D) (j : Fin D) :
    ((selectedMask g ns).getD fun _ => False) j ↔ orderMask ns σ j = true := by
  obtain ⟨m, hm, hmem, -⟩ := selectedMask_spec hg h1 h2
  rw [hm, Option.getD_some, hmem, topK_eq_take, ht, List.mem_take_iff_getElem]
  unfold orderMask
  rw [decide_eq_true_iff]
  constructor
  · rintro ⟨i, hi, e⟩
    rw [List.getElem_ofFn] at e
    rw [← e, Equiv.symm_apply_apply]
    simp at hi ⊢
    omega
  · intro h
    refine ⟨(σ.symm j : ℕ), ?_, ?_⟩
    · rw [List.length_ofFn]; have := (σ.symm j).2; omega
    · rw [List.getElem_ofFn]; simp

theorem pafsLlSelG_eq (ht : topK g D = List.ofFn σ) (lp : Fin D → ℝ) {ns : ℕ} {sel : Fin D → Prop}
    (hsel : ∀ j, sel j ↔ orderMask ns σ j = true) (j : Fin D) :
    pafsLlSelG lp g sel j = pafsLlSel lp ns σ j := by
  classical
  unfold pafsLlSelG pafsLlSel
  simp only [topKArr_full ht, scatterSet_perm]
  congr 1
  exact if_congr (hsel j) rfl rfl

theorem pafsLlBackG_eq (hg : Function.Injective g) (ht : topK g D = List.ofFn σ) (lp : Fin D → ℝ) {ns : ℕ}
    {sel : Fin D → Prop} (hsel : ∀ j, sel j ↔ orderMask ns σ j = true) :
    pafsLlBackG lp g sel = pafsLlBack lp ns σ := by
  unfold pafsLlBackG pafsLlBack
  simp only [argsortArr_eq hg ht, hsel]

end order

theorem raceSet_perm {lp e : Fin D → ℝ} {σ : Equiv.Perm (Fin D)} (he : e ∈ raceSet lp (List.ofFn σ)) :
    topK (perturbed lp e) D = List.ofFn σ ∧ Function.Injective (perturbed lp e) := by
  constructor
  · have := raceSet_topK he (by rw [List.length_ofFn])
    rwa [List.length_ofFn] at this
  · intro a b hab
    by_contra hne
    have : Std.Symm fun a b => perturbed lp e a ≠ perturbed lp e b := ⟨fun _ _ h => h.symm⟩
    have hmem : ∀ a, a ∈ List.ofFn σ := fun a => List.mem_ofFn.2 (σ.surjective a)
    exact List.Pairwise.forall ((raceSet_order he).1.imp fun h => h.ne') (hmem a) (hmem b) hne hab

/-- The adaptive step from noise is the step with the order of the perturbed scores. -/
theorem pafsAdaptiveNoiseStep_eq (hD : 0 < D) (target tiny : ℝ) (calls : ℕ) (h : ℝ → ℝ)
    (f : (Fin D → ℤ) → ℝ) (lr : (Fin D → ℤ) → Fin D → ℝ) {B : ℕ} (mask : Option (Fin B → Fin D → ℝ))
    (x : Fin B → Fin D → ℤ) (e : Fin B → Fin D → ℝ) (u : Fin B → ℝ) (s : LBState)
    (σ : Fin B → Equiv.Perm (Fin D))
    (he : ∀ b, e b ∈ raceSet (pafsLogProb h lr (mask.map (· b)) (x b)) (List.ofFn (σ b))) :
    pafsAdaptiveNoiseStep target tiny calls h f lr mask x e u s =
      pafsAdaptiveStep target tiny calls h f lr mask x σ u s := by
  have hsel := fun b => selectedMask_order (raceSet_perm (he b)).2 (raceSet_perm (he b)).1
    (numFlips_pos hD s.radius) (numFlips_le s.radius)
  classical
  have hy : ∀ b, (maskFlip (x b) fun j => decide (((selectedMask (perturbed (pafsLogProb h lr
      (mask.map fun m => m b) (x b)) (e b)) (numFlips D s.radius)).getD fun _ => False) j)) =
      maskFlip (x b) (orderMask (numFlips D s.radius) (σ b)) := by
    intro b
    congr 1
    funext j
    rw [Bool.eq_iff_iff, decide_eq_true_iff]
    exact hsel b j
  unfold pafsAdaptiveNoiseStep pafsAdaptiveStep
  simp only [hy, fun b lp j => pafsLlSelG_eq (raceSet_perm (he b)).1 lp (hsel b) j,
    fun b lp => pafsLlBackG_eq (raceSet_perm (he b)).2 (raceSet_perm (he b)).1 lp (hsel b)]

/-- **C76 (path-auxiliary, adaptive).** Threshold mask, sorted forward score and reversed backward score
computed from Gumbel-perturbed log-probabilities give the transition probabilities of the draw model. -/
theorem pafsAdaptive_from_noise (hD : 0 < D) (target tiny : ℝ) (h : ℝ → ℝ) (f : (Fin D → ℤ) → ℝ)
    (lr : (Fin D → ℤ) → Fin D → ℝ) (mask : Option (Fin D → ℝ)) (s : LBState) (x y : Fin D → ℤ) :
    pafsAdaptiveNoiseKernel target tiny h f lr mask s x y =
      pafsAdaptiveKernel target tiny h f lr mask s x y := by
  have hmask : (mask.map fun m (_ : Fin 1) => m).map (· 0) = mask := by cases mask <;> rfl
  unfold pafsAdaptiveNoiseKernel pafsAdaptiveKernel
  have hinj : Function.Injective fun σ : Equiv.Perm (Fin D) => List.ofFn σ := fun σ τ e =>
    Equiv.coe_fn_injective (List.ofFn_injective e)
  have hrace := fun σ : Equiv.Perm (Fin D) => noise_raceSet (pafsLogProb h lr mask x) (List.ofFn σ)
  rw [noiseLaw_eq_lawU (Ω := Equiv.Perm (Fin D))
    (A := fun σ => raceSet (pafsLogProb h lr mask x) (List.ofFn σ))
    (r := fun σ u => (pafsAdaptiveStep target tiny 4 h f lr (mask.map fun m (_ : Fin 1) => m) (fun _ => x)
      (fun _ => σ) (fun _ => u) s).1 0) (fun σ => measurableSet_raceSet _ _)]
  · simp only [hrace, ENNReal.toReal_ofReal (seqDraw_nonneg (fun j => (Real.exp_pos _).le) _ _)]
    rfl
  · intro i i' hne
    exact raceSet_disjoint (by rw [List.length_ofFn]) (by rw [List.length_ofFn, List.length_ofFn])
      (hinj.ne hne)
  · refine raceSet_full _ _ le_rfl (fun _ => List.length_ofFn) hinj ?_
    have := sum_pafsOrderLaw (Nat.zero_le D) (pafsLogProb h lr mask x) Fin.elim0
    simp only [Subsingleton.elim (firstSites (Nat.zero_le D) _) Fin.elim0, if_true] at this
    exact this.trans (by simp [pafsIdxLaw, seqDraw])
  · intro σ e he u
    rw [pafsAdaptiveNoiseStep_eq hD target tiny 4 h f lr _ (fun _ => x) (fun _ => e) (fun _ => u) s
      (fun _ => σ)]
    intro b
    rw [Subsingleton.elim b 0, hmask]
    exact he
  · intro σ
    exact measurableSet_mh _ _ _ _ _

/-- **C76 (what the user runs).** The path-auxiliary sampler driven by uniform noise leaves the target invariant up
to the offset of the acceptance test. -/
theorem pafs_noise_nearlyInvariant (hD : 0 < D) {k : ℕ} (hk : k ≤ D) (h : ℝ → ℝ) (f : (Fin D → ℤ) → ℝ)
    (lr : (Fin D → ℤ) → Fin D → ℝ) (mask : Option (Fin D → ℝ)) (s : ℕ → LBState) (n : ℕ) :
    NearlyInvariant (validStates 2 D) (fun x => Real.exp (f x))
      (iterate (validStates 2 D) (fun t => pafsBinaryNoiseKernel hk mhTiny h f lr mask (s t)) n)
      (n * (2 * mhTiny)) := by
  have : (fun t => pafsBinaryNoiseKernel hk mhTiny h f lr mask (s t)) =
      fun t => pafsBinaryKernel k mhTiny h f lr mask (s t) := by
    funext t x y; exact pafsBinary_from_noise hk mhTiny h f lr mask (s t) x y
  rw [this]
  exact pafs_nearlyInvariant_run hD hk h f lr mask s n

/-- Instance: three classes with probabilities 1/2, 1/3, 1/6; class 2 then class 0 has probability 1/10. -/
example : noise (Fin 3) {e | topK (fun j => gumbel (Real.log ((![1/2, 1/3, 1/6] : Fin 3 → ℝ) j)) (e j)) 2 =
    List.ofFn ![2, 0]} = ENNReal.ofReal (1 / 10) := by
  rw [gumbel_topK (by norm_num)]
  congr 1
  have hp : (fun j => Real.exp (Real.log ((![1/2, 1/3, 1/6] : Fin 3 → ℝ) j))) = ![1/2, 1/3, 1/6] := by
    funext j
    exact Real.exp_log (by fin_cases j <;> norm_num)
  rw [hp]
  have h1 : (univ \ ∅ : Finset (Fin 3)) = univ := by decide
  have h2 : (univ \ insert 2 ∅ : Finset (Fin 3)) = {0, 1} := by decide
  simp only [List.ofFn_succ, List.ofFn_zero, Matrix.cons_val_zero, Matrix.cons_val_succ, seqDraw, h1, h2]
  rw [Fin.sum_univ_three, Finset.sum_pair (by decide), if_neg (by decide), if_neg (by decide)]
  simp only [Matrix.cons_val]
  norm_num

end Discs
