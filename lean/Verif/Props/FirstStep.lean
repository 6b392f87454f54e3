import Verif.Model.BatchKernel
import Verif.Props.DLMC
import Verif.Lemmas.PathAuxCateg
import Verif.Lemmas.Product
import Mathlib.InformationTheory.Hamming

/-!
# C127: the step size the gradient samplers start with

DMALA and DLMC compute a step size from the batch in the first step of a run (and in every step with `co_opt_prob`).  The
theorems say what it is chosen for: the rates of all changes of a chain add up to `n` (3 for DMALA) on average over the batch,
and so the chains change at most `n` sites on average in that step.
-/

namespace Discs

open Finset Spec MeasureTheory

variable {B D : ℕ}

/-- Number of sites in which two batches differ. -/
def Spec.batchHops (x y : Fin B → Fin D → ℤ) : ℕ := ∑ b, hammingDist (x b) (y b)

/-! ## Expectations -/

/-- One coordinate of independent draws. -/
theorem prod_marginal {ι Ω : Type*} [Fintype ι] [DecidableEq ι] [Fintype Ω] {p : ι → Ω → ℝ} (hp : ∀ i, ∑ ω, p i ω = 1)
    (i : ι) (u : Ω → ℝ) : ∑ ω : ι → Ω, (∏ j, p j (ω j)) * u (ω i) = ∑ c, p i c * u c := by
  have h := Fintype.prod_sum (f := fun (j : ι) (c : Ω) => p j c * if j = i then u c else 1)
  have h2 : ∀ ω : ι → Ω, (∏ j, p j (ω j)) * u (ω i) = ∏ j, p j (ω j) * if j = i then u (ω j) else 1 := by
    intro ω
    rw [Finset.prod_mul_distrib, Finset.prod_ite_eq' Finset.univ i]
    simp
  simp only [h2]
  rw [← h, Finset.prod_eq_single i]
  · simp
  · intro j _ hj
    simp [hj, hp]
  · simp

theorem volume_cube_unit : volume {u : Fin B → ℝ | ∀ b, u b ∈ Set.Ico (0 : ℝ) 1} = 1 := by
  have : {u : Fin B → ℝ | ∀ b, u b ∈ Set.Ico (0 : ℝ) 1} = Set.univ.pi fun _ => Set.Ico (0 : ℝ) 1 := by
    ext u
    simp
  rw [this, Real.volume_pi_Ico]
  simp

/-- An expectation over the outcomes of a batch is at most the expectation of a bound in terms of the draws. -/
theorem batch_mean_le {X Z Ω : Type*} [Fintype Ω] [DecidableEq Ω] {p : Fin B → Ω → ℝ} (hp : ∀ b ω, 0 ≤ p b ω)
    {f : (Fin B → Ω) → (Fin B → ℝ) → Fin B → X} (hm : ∀ ω y, MeasurableSet {u | f ω u = y}) {S : Finset Z}
    {e : Z → Fin B → X} (he : Function.Injective e) {φ : Z → ℝ} {M : (Fin B → Ω) → ℝ} (hM0 : ∀ ω, 0 ≤ M ω)
    (hM : ∀ ω u, ∀ z ∈ S, f ω u = e z → φ z ≤ M ω) :
    ∑ z ∈ S, batchLawU p f (e z) * φ z ≤ ∑ ω, (∏ b, p b (ω b)) * M ω := by
  unfold batchLawU
  simp only [Finset.sum_mul]
  rw [Finset.sum_comm]
  refine Finset.sum_le_sum fun ω _ => ?_
  simp only [mul_assoc]
  rw [← Finset.mul_sum]
  refine mul_le_mul_of_nonneg_left ?_ (Finset.prod_nonneg fun b _ => hp b _)
  set A : Z → Set (Fin B → ℝ) := fun z => {u | (∀ b, u b ∈ Set.Ico (0 : ℝ) 1) ∧ f ω u = e z} with hA
  have hcube : MeasurableSet {u : Fin B → ℝ | ∀ b, u b ∈ Set.Ico (0 : ℝ) 1} := by
    have : {u : Fin B → ℝ | ∀ b, u b ∈ Set.Ico (0 : ℝ) 1} = Set.univ.pi fun _ => Set.Ico (0 : ℝ) 1 := by
      ext u
      simp
    rw [this]
    exact MeasurableSet.univ_pi fun _ => measurableSet_Ico
  have hAm : ∀ z, MeasurableSet (A z) := fun z => hcube.inter (hm ω (e z))
  have hfin : ∀ z, volume (A z) ≠ ⊤ := fun z =>
    ne_top_of_le_ne_top (ENNReal.one_ne_top) ((measure_mono fun u hu => hu.1).trans (volume_cube_unit (B := B)).le)
  have htot : ∑ z ∈ S, (volume (A z)).toReal ≤ 1 := by
    rw [← ENNReal.toReal_sum fun z _ => hfin z, ← measure_biUnion_finset]
    · refine ENNReal.toReal_le_of_le_ofReal zero_le_one ?_
      rw [ENNReal.ofReal_one, ← volume_cube_unit (B := B)]
      exact measure_mono (Set.iUnion₂_subset fun z _ u hu => hu.1)
    · intro z _ z' _ hne
      exact Set.disjoint_left.2 fun u h1 h2 => hne (he (h1.2.symm.trans h2.2))
    · exact fun z _ => hAm z
  calc ∑ z ∈ S, (volume (A z)).toReal * φ z ≤ ∑ z ∈ S, (volume (A z)).toReal * M ω := by
        refine Finset.sum_le_sum fun z hz => ?_
        rcases (A z).eq_empty_or_nonempty with h0 | ⟨u, hu⟩
        · rw [h0]; simp
        · exact mul_le_mul_of_nonneg_left (hM ω u z hz hu.2) ENNReal.toReal_nonneg
    _ = (∑ z ∈ S, (volume (A z)).toReal) * M ω := (Finset.sum_mul ..).symm
    _ ≤ 1 * M ω := mul_le_mul_of_nonneg_right htot (hM0 ω)
    _ = M ω := one_mul _

theorem measurable_mhStep {X : Type*} (tiny : ℝ) (la : Fin B → ℝ) (x y z : Fin B → X) :
    MeasurableSet {u : Fin B → ℝ | (mhStep tiny u la x y).1 = z} := by
  have : {u : Fin B → ℝ | (mhStep tiny u la x y).1 = z} =
      ⋂ b, {u | (if Real.log (u b + tiny) < la b then y b else x b) = z b} := by
    ext u
    simp only [Set.mem_ofPred_eq, Set.mem_iInter]
    exact funext_iff
  rw [this]
  refine MeasurableSet.iInter fun b => ?_
  have h1 : MeasurableSet {u : Fin B → ℝ | Real.log (u b + tiny) < la b} :=
    measurableSet_lt (Real.measurable_log.comp ((measurable_pi_apply b).add_const _)) measurable_const
  by_cases hx : x b = z b <;> by_cases hy : y b = z b
  · convert MeasurableSet.univ using 1
    ext u; simp [hx, hy]
  · convert h1.compl using 1
    ext u; simp [hx, hy]
  · convert h1 using 1
    ext u; simp [hx, hy]
  · convert MeasurableSet.empty using 1
    ext u
    by_cases h : Real.log (u b + tiny) < la b
    · simp [h, hy]
    · simp [h, hx]

/-- Expected number of changed sites of a batch whose chains and sites draw independently. -/
theorem batch_sites_mean {Ω : Type*} [Fintype Ω] {q : Fin B → Fin D → Ω → ℝ} (hq : ∀ b j, ∑ ω, q b j ω = 1)
    (m : Fin B → Fin D → Ω → ℝ) :
    ∑ ω : Fin B → Fin D → Ω, (∏ b, ∏ j, q b j (ω b j)) * ∑ b, ∑ j, m b j (ω b j) =
      ∑ b, ∑ j, ∑ c, q b j c * m b j c := by
  simp only [Finset.mul_sum]
  rw [Finset.sum_comm]
  refine Finset.sum_congr rfl fun b _ => ?_
  rw [Finset.sum_comm]
  refine Finset.sum_congr rfl fun j _ => ?_
  have h1 : ∀ b, ∑ v : Fin D → Ω, ∏ j, q b j (v j) = 1 := fun b => by
    have := Fintype.prod_sum (f := fun (j : Fin D) (c : Ω) => q b j c)
    rw [← this]
    exact Finset.prod_eq_one fun j _ => hq b j
  rw [prod_marginal (p := fun b (v : Fin D → Ω) => ∏ j, q b j (v j)) h1 b fun v => m b j (v j)]
  exact prod_marginal (hq b) j (m b j)

/-! ## The step size -/

/-- **C127 (DMALA).** The step size of the first step makes the rates of the chains add up to three on average. -/
theorem dmala_reset_rate [NeZero B] {I : Type*} [Fintype I] [Nonempty I] (w : Fin B → I → ℝ) :
    ∑ b, ∑ i, Real.exp ((dmalaReset w).logTau + w b i) = 3 * B := by
  have hB : (0 : ℝ) < B := by exact_mod_cast NeZero.pos B
  have hpos : 0 < ∑ b, ∑ i, Real.exp (w b i) :=
    Finset.sum_pos (fun b _ => Finset.sum_pos (fun i _ => Real.exp_pos _) univ_nonempty) univ_nonempty
  simp only [Real.exp_add, ← Finset.mul_sum]
  unfold dmalaReset meanB
  simp only
  rw [Real.exp_sub, Real.exp_log (by norm_num), Real.exp_log (by positivity)]
  field_simp

/-- **C127 (DLMC).** The same for the setting `n`. -/
theorem dlmc_reset_rate [NeZero B] {I : Type*} [Fintype I] [Nonempty I] {c : DCfg} (hn : 0 < c.n) (w : Fin B → I → ℝ) :
    ∑ b, ∑ i, Real.exp ((dlmcReset c w).logTau + w b i) = c.n * B := by
  have hB : (0 : ℝ) < B := by exact_mod_cast NeZero.pos B
  have hpos : 0 < ∑ b, ∑ i, Real.exp (w b i) :=
    Finset.sum_pos (fun b _ => Finset.sum_pos (fun i _ => Real.exp_pos _) univ_nonempty) univ_nonempty
  have hsum : ∑ i : Fin B × I, Real.exp (w i.1 i.2) = ∑ b, ∑ i, Real.exp (w b i) := Fintype.sum_prod_type _
  simp only [Real.exp_add, ← Finset.mul_sum]
  unfold dlmcReset logsumexp
  simp only
  rw [hsum, Real.exp_sub, Real.exp_sub, Real.exp_log hn, Real.exp_log hB, Real.exp_log hpos]
  field_simp

/-- The step computes its step size from the batch. -/
def Spec.freshDmala (c : DCfg) (s : DState) : Prop := c.adaptive = true ∧ (c.coOpt = true ∨ s.steps = 0)

def Spec.freshDlmc (c : DCfg) (s : DState) : Prop := (c.adaptive = true ∧ c.coOpt = true) ∨ s.steps = 0

theorem dmalaLogTau_fresh {c : DCfg} {s : DState} (h : freshDmala c s) (loc : DStats) :
    dmalaLogTau c s loc = some loc.logTau := by
  unfold dmalaLogTau
  rcases h with ⟨ha, hc | hs⟩
  · simp [ha, hc]
  · simp [ha, hs]

theorem dlmcLogTau_fresh {c : DCfg} {s : DState} (h : freshDlmc c s) (loc : DStats) :
    dlmcLogTau c s loc = some loc.logTau := by
  unfold dlmcLogTau
  rcases h with ⟨ha, hc⟩ | hs
  · simp [ha, hc]
  · simp [hs]

/-! ## Binary samples -/

theorem sigmoid_le_exp (a : ℝ) : sigmoid a ≤ Real.exp a := by
  unfold sigmoid
  rw [div_le_iff₀ (by positivity), mul_add, ← Real.exp_add, add_neg_cancel, Real.exp_zero]
  linarith [Real.exp_pos a]

theorem dlmcFlip_le {name : String} {t w d p : ℝ} (hp : dlmcFlipProb name t w d = .ok p) : p ≤ Real.exp (t + w) := by
  rw [Real.exp_add]
  by_cases h1 : name = "interpolate"
  · subst h1
    rw [dlmcFlipProb_interpolate] at hp
    obtain rfl := Except.ok.inj hp
    have hs := sigmoid_pos d
    have := Real.add_one_le_exp (-(Real.exp t * Real.exp w / sigmoid d))
    calc sigmoid d * (1 - Real.exp (-(Real.exp t * Real.exp w / sigmoid d)))
        ≤ sigmoid d * (Real.exp t * Real.exp w / sigmoid d) := mul_le_mul_of_nonneg_left (by linarith) hs.le
      _ = Real.exp t * Real.exp w := by field_simp
  · by_cases h2 : name = "euler_forward"
    · subst h2
      rw [dlmcFlipProb_euler] at hp
      obtain rfl := Except.ok.inj hp
      exact min_le_left _ _
    · obtain ⟨e, he⟩ := (dlmcFlipProb_error name t w d).2 (by simp [knownSolvers, h1, h2])
      rw [he] at hp
      exact absurd hp (by simp)

/-- Changed sites of a batch whose chains either keep their sample or flip the drawn sites. -/
theorem flip_hops_le (x : Fin B → Fin D → ℤ) (flip : Fin B → Fin D → Bool) {y : Fin B → Fin D → ℤ}
    (hy : ∀ b, y b = x b ∨ y b = flipSites (x b) (flip b)) :
    (batchHops x y : ℝ) ≤ ∑ b, ∑ j, if flip b j then (1 : ℝ) else 0 := by
  unfold batchHops
  push_cast
  refine Finset.sum_le_sum fun b _ => ?_
  have h : hammingDist (x b) (y b) ≤ ∑ j, if flip b j then 1 else 0 := by
    unfold hammingDist
    rw [Finset.card_filter]
    refine Finset.sum_le_sum fun j _ => ?_
    rcases hy b with e | e <;> rw [e]
    · simp
    · unfold flipSites
      cases flip b j <;> simp
      split_ifs <;> simp
  exact_mod_cast h

theorem mhStep_or {X : Type*} (tiny : ℝ) (u la : Fin B → ℝ) (x y : Fin B → X) (b : Fin B) :
    (mhStep tiny u la x y).1 b = x b ∨ (mhStep tiny u la x y).1 b = y b := by
  unfold mhStep
  simp only
  split_ifs
  · exact Or.inr rfl
  · exact Or.inl rfl

theorem mhStep_map {X Y : Type*} (G : X → Y) (tiny : ℝ) (u la : Fin B → ℝ) (x y : Fin B → X) :
    (fun b => G ((mhStep tiny u la x y).1 b)) = (mhStep tiny u la (fun b => G (x b)) fun b => G (y b)).1 := by
  funext b
  unfold mhStep
  simp only
  split_ifs <;> rfl

/-- A step that either raises or ends with `mh_step`. -/
def Spec.EndsMh {X R : Type*} (tiny : ℝ) (x y : Fin B → X) (F : (Fin B → ℝ) → Except String ((Fin B → X) × R)) : Prop :=
  (∃ e, ∀ u, F u = .error e) ∨ ∃ la, ∀ u, ∃ r, F u = .ok ((mhStep tiny u la x y).1, r)

theorem endsMh_measurable {X R : Type*} {tiny : ℝ} {x y : Fin B → X} {F : (Fin B → ℝ) → Except String ((Fin B → X) × R)}
    (hF : EndsMh tiny x y F) (z : Fin B → Option X) :
    MeasurableSet {u | (fun b => (F u).toOption.map fun r => r.1 b) = z} := by
  rcases hF with ⟨e, he⟩ | ⟨la, hla⟩
  · simp only [he]
    exact MeasurableSet.const _
  · have hv : ∀ u b, ((F u).toOption.map fun r => r.1 b) = some ((mhStep tiny u la x y).1 b) := fun u b => by
      obtain ⟨r, hr⟩ := hla u
      rw [hr]
      rfl
    simp only [hv]
    by_cases hz : ∃ z' : Fin B → X, z = fun b => some (z' b)
    · obtain ⟨z', rfl⟩ := hz
      convert measurable_mhStep tiny la x y z' using 1
      ext u
      simp only [Set.mem_ofPred_eq]
      exact ⟨fun e => funext fun b => Option.some.inj (congrFun e b), fun e => funext fun b => by rw [e]⟩
    · convert MeasurableSet.empty using 1
      ext u
      simp only [Set.mem_ofPred_eq, Set.mem_empty_iff_false, iff_false]
      exact fun e => hz ⟨_, e.symm⟩

theorem endsMh_or {X R : Type*} {tiny : ℝ} {x y : Fin B → X} {F : (Fin B → ℝ) → Except String ((Fin B → X) × R)}
    (hF : EndsMh tiny x y F) {z : Fin B → X} {u : Fin B → ℝ}
    (hz : (fun b => (F u).toOption.map fun r => r.1 b) = fun b => some (z b)) (b : Fin B) : z b = x b ∨ z b = y b := by
  have eb := congrFun hz b
  rcases hF with ⟨e, he⟩ | ⟨la, hla⟩
  · rw [he] at eb
    exact absurd eb (by simp [Except.toOption])
  · obtain ⟨r, hr⟩ := hla u
    rw [hr] at eb
    simp only [Except.toOption, Option.map_some, Option.some.injEq] at eb
    rw [← eb]
    exact mhStep_or ..

/-- Expected flips of a batch with flip probabilities `q`. -/
theorem flip_mean (q : Fin B → Fin D → ℝ) :
    ∑ ω : Fin B → Fin D → Bool, (∏ b, flipLaw (q b) (ω b)) * ∑ b, ∑ j, (if ω b j then (1 : ℝ) else 0) =
      ∑ b, ∑ j, q b j := by
  have h := batch_sites_mean (q := fun b j (c : Bool) => if c then q b j else 1 - q b j) (fun b j => by simp)
    fun _ _ c => if c then (1 : ℝ) else 0
  unfold flipLaw
  rw [h]
  simp

/-- **C127 (binary DMALA).** In a step that computes its step size, a batch of `B` chains changes at most `3 B` sites on
average. -/
theorem dmala_first_hops [NeZero B] [NeZero D] {c : DCfg} {s : DState} (hs : freshDmala c s) (tiny eps : ℝ) (h : ℝ → ℝ)
    (f : (Fin D → ℤ) → ℝ) (g : (Fin D → ℤ) → Fin D → ℝ) (x : Fin B → Fin D → ℤ) :
    ∑ y ∈ prodStates B (validStates 2 D), dmalaBinaryBatchKernel c tiny eps h f g s x y * batchHops x y ≤ 3 * B := by
  unfold dmalaBinaryBatchKernel
  simp only [dmalaLogTau_fresh hs]
  refine (batch_mean_le (p := fun b => flipLaw fun j => dmalaFlipProb (dmalaReset fun b j => h (deltaBinary g (x b) j)).logTau
    (h (deltaBinary g (x b) j))) (fun b ω => Finset.prod_nonneg fun j _ => ?_) (fun ω y => ?_) (e := fun y => y)
    Function.injective_id (M := fun ω => ∑ b, ∑ j, if ω b j then (1 : ℝ) else 0) (fun ω => ?_) fun ω u z _ e => ?_).trans ?_
  · have := dmalaFlipProb_mem (dmalaReset fun b j => h (deltaBinary g (x b) j)).logTau (h (deltaBinary g (x b) j))
    split_ifs <;> linarith [this.1, this.2]
  · unfold dmalaBinaryStep
    simp only [dmalaLogTau_fresh hs]
    exact measurable_mhStep ..
  · exact Finset.sum_nonneg fun b _ => Finset.sum_nonneg fun j _ => by split_ifs <;> norm_num
  · refine flip_hops_le x ω fun b => ?_
    rw [← e]
    unfold dmalaBinaryStep
    simp only [dmalaLogTau_fresh hs]
    exact mhStep_or ..
  · rw [flip_mean, ← dmala_reset_rate fun b j => h (deltaBinary g (x b) j)]
    refine Finset.sum_le_sum fun b _ => Finset.sum_le_sum fun j _ => ?_
    rw [dmalaFlipProb_eq]
    exact sigmoid_le_exp _

/-- **C127 (binary DLMC).** -/
theorem dlmc_first_hops [NeZero B] [NeZero D] {c : DCfg} {s : DState} (hs : freshDlmc c s) (hn : 0 < c.n) (tiny eps : ℝ)
    (h : ℝ → ℝ) (f : (Fin D → ℤ) → ℝ) (g : (Fin D → ℤ) → Fin D → ℝ) (x : Fin B → Fin D → ℤ) :
    ∑ y ∈ prodStates B (validStates 2 D), dlmcBinaryBatchKernel c tiny eps h f g s x y * batchHops x y ≤ c.n * B := by
  unfold dlmcBinaryBatchKernel
  simp only [dlmcLogTau_fresh hs]
  set τ := (dlmcReset c fun b j => h (deltaBinary g (x b) j)).logTau with hτ
  set q : Fin B → Fin D → ℝ := fun b j =>
    (dlmcFlipProb c.solver τ (h (deltaBinary g (x b) j)) (deltaBinary g (x b) j)).toOption.getD 0 with hq
  have hq' : ∀ b j, 0 ≤ q b j ∧ q b j ≤ 1 ∧ q b j ≤ Real.exp (τ + h (deltaBinary g (x b) j)) := by
    intro b j
    simp only [hq]
    cases e : dlmcFlipProb c.solver τ (h (deltaBinary g (x b) j)) (deltaBinary g (x b) j) with
    | error m => exact ⟨le_rfl, zero_le_one, (Real.exp_pos _).le⟩
    | ok p =>
      have := dlmcFlipProb_mem e
      exact ⟨this.1.le, this.2.1.le, dlmcFlip_le e⟩
  have hstep : ∀ ω, EndsMh tiny x (fun b => flipSites (x b) (ω b)) fun u => dlmcBinaryStep c tiny eps h f g x ω u s := by
    intro ω
    unfold dlmcBinaryStep
    simp only [dlmcLogTau_fresh hs]
    split_ifs
    · exact Or.inl ⟨_, fun _ => rfl⟩
    · exact Or.inr ⟨_, fun _ => ⟨_, rfl⟩⟩
  refine (batch_mean_le (p := fun b => flipLaw (q b)) (fun b ω => Finset.prod_nonneg fun j _ => ?_) (fun ω y => ?_)
    (e := fun (y : Fin B → Fin D → ℤ) b => some (y b)) (fun y y' e => funext fun b => Option.some.inj (congrFun e b))
    (φ := fun y => (batchHops x y : ℝ)) (M := fun ω => ∑ b, ∑ j, if ω b j then (1 : ℝ) else 0) (fun ω => ?_)
    fun ω u z _ e => ?_).trans ?_
  · have := hq' b j
    split_ifs <;> linarith [this.1, this.2.1]
  · exact endsMh_measurable (hstep ω) y
  · exact Finset.sum_nonneg fun b _ => Finset.sum_nonneg fun j _ => by split_ifs <;> norm_num
  · exact flip_hops_le x ω (endsMh_or (hstep ω) e)
  · rw [flip_mean, ← dlmc_reset_rate hn fun b j => h (deltaBinary g (x b) j)]
    exact Finset.sum_le_sum fun b _ => Finset.sum_le_sum fun j _ => (hq' b j).2.2

/-! ## Categorical samples -/

theorem categ_hops_le {C : ℕ} (x : Fin B → Fin D → ℤ) (v : Fin B → Fin D → Fin C) {y : Fin B → Fin D → ℤ}
    (hy : ∀ b, y b = x b ∨ y b = categRow (v b)) :
    (batchHops x y : ℝ) ≤ ∑ b, ∑ j, if ((v b j : ℕ) : ℤ) = x b j then (0 : ℝ) else 1 := by
  unfold batchHops
  push_cast
  refine Finset.sum_le_sum fun b _ => ?_
  have h : hammingDist (x b) (y b) ≤ ∑ j, if ((v b j : ℕ) : ℤ) = x b j then 0 else 1 := by
    unfold hammingDist
    rw [Finset.card_filter]
    refine Finset.sum_le_sum fun j _ => ?_
    rcases hy b with e | e <;> rw [e]
    · simp
    · unfold categRow
      by_cases h' : ((v b j : ℕ) : ℤ) = x b j
      · simp [h']
      · rw [if_neg h']
        split_ifs <;> simp
  exact_mod_cast h

/-- Expected changes of a batch whose sites draw categories with logits `l`. -/
theorem categ_mean {C : ℕ} (hC : 0 < C) (l : Fin B → Fin D → Fin C → ℝ) (x : Fin B → Fin D → ℤ) :
    ∑ v : Fin B → Fin D → Fin C, (∏ b, categLaw (l b) (v b)) *
      ∑ b, ∑ j, (if ((v b j : ℕ) : ℤ) = x b j then (0 : ℝ) else 1) =
      ∑ b, ∑ j, ∑ k : Fin C, if ((k : ℕ) : ℤ) = x b j then 0 else softmax (l b j) k := by
  have : Nonempty (Fin C) := ⟨⟨0, hC⟩⟩
  have h := batch_sites_mean (q := fun b j => softmax (l b j)) (fun b j => (isProb_softmax (l b j)).2)
    fun b j (k : Fin C) => if ((k : ℕ) : ℤ) = x b j then (0 : ℝ) else 1
  unfold categLaw
  rw [h]
  refine Finset.sum_congr rfl fun b _ => Finset.sum_congr rfl fun j _ => Finset.sum_congr rfl fun k _ => ?_
  split_ifs <;> simp

/-- If leaving the current category has weight `exp (post k)` and the weights add up to one at least, no change is likelier
than its weight. -/
theorem softmax_le_of_sum {C : ℕ} {l : Fin C → ℝ} (h1 : 1 ≤ ∑ k, Real.exp (l k)) (k : Fin C) : softmax l k ≤ Real.exp (l k) :=
  div_le_self (Real.exp_pos _).le h1

theorem dmalaCateg_le {C : ℕ} (τ : ℝ) (w : Fin C → ℝ) {a : ℤ} (ha : 0 ≤ a ∧ a < C) {k : Fin C} (hk : ((k : ℕ) : ℤ) ≠ a) :
    softmax (dmalaCategDist τ w (oneHot C a)) k ≤ Real.exp (τ + w k) := by
  have : Nonempty (Fin C) := ⟨k⟩
  unfold dmalaCategDist
  rw [softmax_logSoftmax]
  have hx : oneHot C a k = 0 := if_neg hk
  refine (softmax_le_of_sum ?_ k).trans ?_
  · let k0 : Fin C := ⟨a.toNat, by omega⟩
    have h0 : oneHot C a k0 = 1 := if_pos (by simp [k0]; omega)
    have := Finset.single_le_sum (f := fun k => Real.exp ((τ + w k) * (1 - oneHot C a k))) (fun k _ => (Real.exp_pos _).le)
      (mem_univ k0)
    simpa [h0] using this
  · simp [hx]

theorem dlmcCateg_le {C : ℕ} {solver : String} {τ : ℝ} {w delta : Fin C → ℝ} {a : ℤ} (ha : 0 ≤ a ∧ a < C) {k : Fin C}
    (hk : ((k : ℕ) : ℤ) ≠ a) {l : Fin C → ℝ} (hl : dlmcCategDist solver τ w delta (oneHot C a) = .ok l) :
    softmax l k ≤ Real.exp (τ + w k) := by
  have : Nonempty (Fin C) := ⟨k⟩
  let k0 : Fin C := ⟨a.toNat, by omega⟩
  have hk0 : ((k0 : ℕ) : ℤ) = a := by simp [k0]; omega
  have h0 : oneHot C a k0 = 1 := if_pos hk0
  have hne : ∀ k' : Fin C, k' ≠ k0 → oneHot C a k' = 0 := fun k' h => if_neg fun e => h (Fin.ext (by
    have : ((k' : ℕ) : ℤ) = ((k0 : ℕ) : ℤ) := e.trans hk0.symm
    exact_mod_cast this))
  have hkk : k ≠ k0 := fun e => hk (by rw [e, hk0])
  -- what both solvers do after computing `post`
  have key : ∀ post : Fin C → ℝ, (∀ k', Real.exp (post k') ≤ Real.exp (τ + w k')) →
      l = (fun k => post k * (1 - oneHot C a k) + oneHot C a k * clipMin
        (Real.log (1 + -(clipMax (∑ k', Real.exp (post k') * (1 - oneHot C a k')) (1 - 1e-12)))) (logSoftmax delta k)) →
      softmax l k ≤ Real.exp (τ + w k) := by
    intro post hpost el
    have hlk : ∀ k', k' ≠ k0 → l k' = post k' := fun k' h' => by rw [el]; simp [hne k' h']
    refine (softmax_le_of_sum ?_ k).trans ?_
    · set S := ∑ k', Real.exp (post k') * (1 - oneHot C a k') with hS
      have hS' : S = ∑ k' ∈ univ.erase k0, Real.exp (l k') := by
        rw [hS, ← Finset.add_sum_erase _ _ (mem_univ k0), h0, sub_self, mul_zero, zero_add]
        refine Finset.sum_congr rfl fun k' hk' => ?_
        have := Finset.ne_of_mem_erase hk'
        rw [hne k' this, hlk k' this, sub_zero, mul_one]
      have hm : (0 : ℝ) < 1 + -(clipMax S (1 - 1e-12)) := by
        have : clipMax S (1 - 1e-12) ≤ 1 - 1e-12 := min_le_right _ _
        norm_num at this ⊢
        linarith
      have hl0 : 1 + -(clipMax S (1 - 1e-12)) ≤ Real.exp (l k0) := by
        rw [← Real.exp_log hm]
        refine Real.exp_le_exp.2 ?_
        rw [el]
        simp only [h0, sub_self, mul_zero, zero_add, one_mul]
        exact le_max_left _ _
      rw [← Finset.add_sum_erase _ _ (mem_univ k0), ← hS']
      have : clipMax S (1 - 1e-12) ≤ S := min_le_left _ _
      linarith
    · rw [hlk k hkk]
      exact hpost k
  unfold dlmcCategDist at hl
  simp only at hl
  split_ifs at hl with h1 h2
  · refine key _ (fun k' => ?_) (Except.ok.inj hl).symm
    rw [dlmcLog1mexp_coe, WithBot.unbotD_coe]
    have hpos : 0 < 1 - Real.exp (-Real.exp (τ + w k' - logSoftmax delta k')) := by
      rw [sub_pos, Real.exp_lt_one_iff, neg_lt_zero]
      exact Real.exp_pos _
    rw [Real.exp_add, Real.exp_log hpos]
    have := Real.add_one_le_exp (-Real.exp (τ + w k' - logSoftmax delta k'))
    calc Real.exp (logSoftmax delta k') * (1 - Real.exp (-Real.exp (τ + w k' - logSoftmax delta k')))
        ≤ Real.exp (logSoftmax delta k') * Real.exp (τ + w k' - logSoftmax delta k') :=
          mul_le_mul_of_nonneg_left (by linarith) (Real.exp_pos _).le
      _ = Real.exp (τ + w k') := by rw [← Real.exp_add]; congr 1; ring
  · exact key _ (fun k' => le_rfl) (Except.ok.inj hl).symm

theorem categ_batch_valid {C : ℕ} {x : Fin B → Fin D → ℤ} (hx : x ∈ prodStates B (validStates C D)) (b : Fin B) (j : Fin D) :
    0 ≤ x b j ∧ x b j < C := mem_validStates.1 (mem_prodStates.1 hx b) j

theorem categ_end {C : ℕ} {x : Fin B → Fin D → ℤ} (hx : x ∈ prodStates B (validStates C D)) (v : Fin B → Fin D → Fin C)
    (tiny : ℝ) (la u : Fin B → ℝ) :
    (fun b => argmaxRow ((mhStep tiny u la (fun b => oneHotRow C (x b)) fun b => oneHotRow C (categRow (v b))).1 b)) =
      (mhStep tiny u la x fun b => categRow (v b)).1 := by
  rw [mhStep_map argmaxRow]
  simp only [argmaxRow_oneHotRow (mem_prodStates.1 hx _), argmaxRow_oneHotRow (categRow_valid _)]

/-- **C127 (categorical DMALA).** -/
theorem dmala_categ_first_hops [NeZero B] [NeZero D] {C : ℕ} (hC : 0 < C) {c : DCfg} {s : DState} (hs : freshDmala c s)
    (tiny : ℝ) (h : ℝ → ℝ) (f : (Fin D → Fin C → ℝ) → ℝ) (g : (Fin D → Fin C → ℝ) → Fin D → Fin C → ℝ)
    {x : Fin B → Fin D → ℤ} (hx : x ∈ prodStates B (validStates C D)) :
    ∑ y ∈ prodStates B (validStates C D), dmalaCategBatchKernel c tiny h C f g s x y * batchHops x y ≤ 3 * B := by
  have : Nonempty (Fin C) := ⟨⟨0, hC⟩⟩
  unfold dmalaCategBatchKernel
  simp only [dmalaLogTau_fresh hs]
  set w : Fin B → Fin D × Fin C → ℝ := fun b i => h (deltaCateg g (oneHotRow C (x b)) i.1 i.2) with hw
  have hstep : ∀ v : Fin B → Fin D → Fin C, ∃ la, ∀ u, (dmalaCategStep c tiny h C f g x v u s).1 =
      (mhStep tiny u la x fun b => categRow (v b)).1 := by
    intro v
    unfold dmalaCategStep
    simp only [dmalaLogTau_fresh hs]
    exact ⟨_, fun u => categ_end hx v tiny _ u⟩
  refine (batch_mean_le (p := fun b => categLaw fun j => dmalaCategDist (dmalaReset w).logTau (fun k => w b (j, k))
    (oneHotRow C (x b) j)) (fun b ω => Finset.prod_nonneg fun j _ => (softmax_pos _ _).le) (fun ω y => ?_)
    (e := fun y => y) Function.injective_id (M := fun v => ∑ b, ∑ j, if ((v b j : ℕ) : ℤ) = x b j then (0 : ℝ) else 1)
    (fun ω => ?_) fun ω u z _ e => ?_).trans ?_
  · obtain ⟨la, hla⟩ := hstep ω
    simp only [hla]
    exact measurable_mhStep ..
  · exact Finset.sum_nonneg fun b _ => Finset.sum_nonneg fun j _ => by split_ifs <;> norm_num
  · obtain ⟨la, hla⟩ := hstep ω
    refine categ_hops_le x ω fun b => ?_
    rw [← e, hla]
    exact mhStep_or ..
  · rw [categ_mean hC, ← dmala_reset_rate w]
    refine Finset.sum_le_sum fun b _ => ?_
    rw [Fintype.sum_prod_type]
    refine Finset.sum_le_sum fun j _ => Finset.sum_le_sum fun k _ => ?_
    split_ifs with hk
    · exact (Real.exp_pos _).le
    · exact dmalaCateg_le _ _ (categ_batch_valid hx b j) hk

/-- **C127 (categorical DLMC).** -/
theorem dlmc_categ_first_hops [NeZero B] [NeZero D] {C : ℕ} (hC : 0 < C) {c : DCfg} {s : DState} (hs : freshDlmc c s)
    (hsol : c.solver ∈ knownSolvers) (hn : 0 < c.n) (tiny : ℝ) (h : ℝ → ℝ) (f : (Fin D → Fin C → ℝ) → ℝ)
    (g : (Fin D → Fin C → ℝ) → Fin D → Fin C → ℝ) {x : Fin B → Fin D → ℤ} (hx : x ∈ prodStates B (validStates C D)) :
    ∑ y ∈ prodStates B (validStates C D), dlmcCategBatchKernel c tiny h C f g s x y * batchHops x y ≤ c.n * B := by
  have : Nonempty (Fin C) := ⟨⟨0, hC⟩⟩
  unfold dlmcCategBatchKernel
  simp only [dlmcLogTau_fresh hs]
  set w : Fin B → Fin D × Fin C → ℝ := fun b i => h (deltaCateg g (oneHotRow C (x b)) i.1 i.2) with hw
  set l : Fin B → Fin D → Fin C → ℝ := fun b j => (dlmcCategDist c.solver (dlmcReset c w).logTau (fun k => w b (j, k))
    (deltaCateg g (oneHotRow C (x b)) j) (oneHotRow C (x b) j)).toOption.getD 0 with hl
  have hstep : ∀ v, EndsMh tiny x (fun b => categRow (v b)) fun u => dlmcCategStep c tiny h C f g x v u s := by
    intro v
    unfold dlmcCategStep
    simp only [dlmcLogTau_fresh hs]
    by_cases hu : c.solver ≠ "interpolate" ∧ c.solver ≠ "euler_forward"
    · simp only [if_pos hu]
      exact Or.inl ⟨_, fun _ => rfl⟩
    · simp only [if_neg hu]
      exact Or.inr ⟨_, fun u => ⟨_, congrArg (fun a => Except.ok (a, _)) (categ_end hx v tiny _ u)⟩⟩
  refine (batch_mean_le (p := fun b => categLaw (l b)) (fun b ω => Finset.prod_nonneg fun j _ => (softmax_pos _ _).le)
    (fun ω y => endsMh_measurable (hstep ω) y) (e := fun (y : Fin B → Fin D → ℤ) b => some (y b))
    (fun y y' e => funext fun b => Option.some.inj (congrFun e b)) (φ := fun y => (batchHops x y : ℝ))
    (M := fun v => ∑ b, ∑ j, if ((v b j : ℕ) : ℤ) = x b j then (0 : ℝ) else 1) (fun ω => ?_)
    fun ω u z _ e => categ_hops_le x ω (endsMh_or (hstep ω) e)).trans ?_
  · exact Finset.sum_nonneg fun b _ => Finset.sum_nonneg fun j _ => by split_ifs <;> norm_num
  · rw [categ_mean hC, ← dlmc_reset_rate hn w]
    refine Finset.sum_le_sum fun b _ => ?_
    rw [Fintype.sum_prod_type]
    refine Finset.sum_le_sum fun j _ => Finset.sum_le_sum fun k _ => ?_
    split_ifs with hk
    · exact (Real.exp_pos _).le
    · have hok : ∃ l', dlmcCategDist c.solver (dlmcReset c w).logTau (fun k => w b (j, k))
          (deltaCateg g (oneHotRow C (x b)) j) (oneHot C (x b j)) = .ok l' := by
        unfold dlmcCategDist
        simp only
        rcases List.mem_cons.1 hsol with e | e
        · rw [if_pos e]; exact ⟨_, rfl⟩
        · have e := List.mem_singleton.1 e
          rw [if_neg (by rw [e]; decide), if_pos e]
          exact ⟨_, rfl⟩
      obtain ⟨l', hl'⟩ := hok
      have : l b j = l' := by
        simp only [hl]
        unfold oneHotRow at *
        rw [hl']
        rfl
      rw [this]
      exact dlmcCateg_le (categ_batch_valid hx b j) hk hl'

/-- Two chains of three sites, DLMC with `n = 2`, first step. -/
example (f : (Fin 3 → ℤ) → ℝ) (g : (Fin 3 → ℤ) → Fin 3 → ℝ) (x : Fin 2 → Fin 3 → ℤ) :
    ∑ y ∈ prodStates 2 (validStates 2 3), dlmcBinaryBatchKernel ⟨true, false, 0.3, 0.5, 100, 20, 2, "interpolate"⟩ 0 0 (· / 2)
      f g ⟨0, 0, some 0, 0⟩ x y * batchHops x y ≤ 4 := by
  have := dlmc_first_hops (c := ⟨true, false, 0.3, 0.5, 100, 20, 2, "interpolate"⟩) (s := ⟨0, 0, some 0, 0⟩) (Or.inr rfl)
    (by norm_num) 0 0 (· / 2) f g x
  norm_num at this ⊢
  exact this

/-! ## The normaliser during a run -/

/-- Steps (counted from one) after which the sampler's normaliser is the one of the current batch: the first
`schedule_step - 1` steps, then every `reset_z_est`-th step; the first step only if `reset_z_est` is not positive. -/
def Spec.refreshes (c : DCfg) (t : ℕ) : Prop :=
  (t : ℤ) < c.scheduleStep ∨ (0 < c.resetZ ∧ c.resetZ ∣ t) ∨ (c.resetZ ≤ 0 ∧ t = 1)

/-- State after `T` steps with acceptance rates `acc` and batch statistics `loc`. -/
noncomputable def dHistory (c : DCfg) (acc : ℕ → Option ℝ) (loc : ℕ → DStats) (s : DState) : ℕ → DState
  | 0 => s
  | T + 1 => dSelectState c (dHistory c acc loc s T) (acc (T + 1)) (loc (T + 1))

theorem dHistory_steps (c : DCfg) (acc : ℕ → Option ℝ) (loc : ℕ → DStats) (s : DState) (T : ℕ) :
    (dHistory c acc loc s T).steps = s.steps + T := by
  induction T with
  | zero => rfl
  | succ T ih =>
    have : ∀ (s : DState) a l, (dSelectState c s a l).steps = s.steps + 1 := fun s a l => by
      unfold dSelectState dUpdate
      simp only
      split_ifs <;> rfl
    rw [dHistory, this, ih]
    omega

open Classical in
/-- **C127 (normaliser).** After `T` steps of an adaptive run the stored normaliser is that of the batch at the last step that
refreshed it. -/
theorem d_logZ_run {c : DCfg} (ha : c.adaptive = true) (hc : c.coOpt = false) (acc : ℕ → Option ℝ) (loc : ℕ → DStats)
    {s : DState} (hs : s.steps = 0) (T : ℕ) :
    (dHistory c acc loc s T).logZ = if ∃ t, 1 ≤ t ∧ t ≤ T ∧ refreshes c t then
      (loc (Nat.findGreatest (fun t => 1 ≤ t ∧ refreshes c t) T)).logZ else s.logZ := by
  induction T with
  | zero =>
    rw [if_neg (by rintro ⟨t, h1, h2, -⟩; omega)]
    rfl
  | succ T ih =>
    have hstep : (dHistory c acc loc s (T + 1)).logZ =
        if refreshes c (T + 1) then (loc (T + 1)).logZ else (dHistory c acc loc s T).logZ := by
      have e : (dHistory c acc loc s T).steps = T := by rw [dHistory_steps, hs, zero_add]
      rw [dHistory]
      unfold dSelectState dUpdate
      simp only [ha, hc, Bool.not_true, Bool.or_self, Bool.false_eq_true, if_false, e]
      unfold dNewLogZ refreshes
      by_cases h1 : ((T + 1 : ℕ) : ℤ) < c.scheduleStep
      · rw [if_pos h1, if_pos (Or.inl h1)]
        ring
      · rw [if_neg h1]
        by_cases h2 : 0 < c.resetZ
        · rw [if_pos h2]
          by_cases h3 : c.resetZ ∣ ((T + 1 : ℕ) : ℤ)
          · rw [if_pos (Int.emod_eq_zero_of_dvd h3), if_pos (Or.inr (Or.inl ⟨h2, h3⟩))]
            ring
          · rw [if_neg fun h => h3 (Int.dvd_of_emod_eq_zero h), if_neg]
            · ring
            · rintro (h | ⟨_, h⟩ | ⟨h, _⟩)
              · exact h1 h
              · exact h3 h
              · omega
        · rw [if_neg h2]
          by_cases h3 : T + 1 = 1
          · rw [if_pos h3, if_pos (Or.inr (Or.inr ⟨not_lt.1 h2, h3⟩))]
            ring
          · rw [if_neg h3, if_neg]
            · ring
            · rintro (h | ⟨h, _⟩ | ⟨_, h⟩)
              · exact h1 h
              · exact h2 h
              · exact h3 h
    rw [hstep]
    by_cases hr : refreshes c (T + 1)
    · rw [if_pos hr, if_pos ⟨T + 1, by omega, le_rfl, hr⟩, Nat.findGreatest_eq ⟨by omega, hr⟩]
    · rw [if_neg hr, ih, Nat.findGreatest_of_not fun h => hr h.2]
      refine if_congr ⟨fun ⟨t, h1, h2, h3⟩ => ⟨t, h1, by omega, h3⟩, fun ⟨t, h1, h2, h3⟩ => ⟨t, h1, ?_, h3⟩⟩ rfl rfl
      rcases Nat.lt_or_ge t (T + 1) with h | h
      · omega
      · exact absurd (by rwa [show t = T + 1 by omega] at h3) hr

/-- The shipped DMALA settings: after 150 steps the normaliser is that of the batch at step 140. -/
example (acc : ℕ → Option ℝ) (loc : ℕ → DStats) :
    (dHistory ⟨true, false, 0.3, 0.574, 100, 20, 3, "interpolate"⟩ acc loc ⟨0, 0, some 0, 0⟩ 150).logZ = (loc 140).logZ := by
  classical
  rw [d_logZ_run rfl rfl acc loc rfl, if_pos ⟨140, by norm_num, by norm_num, Or.inr (Or.inl ⟨by norm_num, by norm_num⟩)⟩]
  congr 2
  rw [Nat.findGreatest_eq_iff]
  refine ⟨by norm_num, fun _ => ⟨by norm_num, Or.inr (Or.inl ⟨by norm_num, by norm_num⟩)⟩, ?_⟩
  rintro n h1 h2 ⟨-, h | ⟨-, h⟩ | ⟨h, -⟩⟩
  · simp only at h
    omega
  · simp only at h
    omega
  · norm_num at h

end Discs
