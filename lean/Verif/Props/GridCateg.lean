import Verif.Model.GridCateg
import Verif.Model.GridNoise
import Verif.Lemmas.GridNoise
import Verif.Lemmas.Grid
import Verif.Props.Gumbel
import Verif.Props.Gibbs
import Verif.Props.BlockGibbs
import Verif.Props.Convergence
import Verif.Props.Periodic

/-!
# C104: categorical draws from noise of finite precision
-/

namespace Discs

open Finset Spec MeasureTheory

variable {D C : ℕ}

/-- The vectors compared by `argmax` matter only through their maximal entries. -/
theorem argmax_congr {v w : Fin C → ℝ} (h : ∀ c, (∀ c', v c' ≤ v c) ↔ ∀ c', w c' ≤ w c) : argmax v = argmax w := by
  unfold argmax
  simp only [h]

theorem gumbel_lt_gumbel {l a b : ℝ} (ha : 0 < a) (hb : b < 1) (hab : a < b) : gumbel l a < gumbel l b := by
  unfold gumbel
  have h1 : Real.log a < Real.log b := Real.log_lt_log ha hab
  have h2 : Real.log b < 0 := Real.log_neg (ha.trans hab) hb
  have := Real.log_lt_log (by linarith : 0 < -Real.log b) (by linarith : -Real.log b < -Real.log a)
  linarith

/-- The noise at which the perturbed logit `l` reaches `v`. -/
theorem gumbel_level (l v : ℝ) : ∃ θ : ℝ, 0 < θ ∧ θ < 1 ∧ gumbel l θ = v := by
  refine ⟨Real.exp (-Real.exp (l - v)), Real.exp_pos _, ?_, ?_⟩
  · rw [Real.exp_lt_one_iff]; linarith [Real.exp_pos (l - v)]
  · unfold gumbel
    rw [Real.log_exp, neg_neg, Real.log_exp]; ring

/-- Along each noise coordinate the drawn category changes at most once. -/
theorem categoricalFrom_few (logits : Fin C → ℝ) : FewChanges 1 (categoricalFrom logits) := by
  intro j z
  rcases (univ.erase j).eq_empty_or_nonempty with he | hne
  · refine ⟨∅, by simp, fun a _ b _ _ h => absurd ?_ h⟩
    have : ∀ c, c = j := fun c => by
      by_contra h
      have : c ∈ univ.erase j := mem_erase.2 ⟨h, mem_univ c⟩
      rw [he] at this
      exact absurd this (notMem_empty c)
    refine argmax_congr fun c => ⟨fun _ c' => ?_, fun _ c' => ?_⟩ <;> rw [this c, this c']
  · set g : Fin C → ℝ := fun c => gumbel (logits c) (z c) with hg
    set v := (univ.erase j).sup' hne g with hv
    have hvle : ∀ c, c ≠ j → g c ≤ v := fun c hc => Finset.le_sup' g (mem_erase.2 ⟨hc, mem_univ c⟩)
    obtain ⟨m, hm, hmv⟩ := Finset.exists_mem_eq_sup' hne g
    have hmj : m ≠ j := (mem_erase.1 hm).1
    obtain ⟨θ, h0, h1, hθ⟩ := gumbel_level (logits j) v
    have hself : ∀ a, gumbel (logits j) (Function.update z j a j) = gumbel (logits j) a := fun a => by
      rw [Function.update_self]
    have hoth : ∀ a c, c ≠ j → gumbel (logits c) (Function.update z j a c) = g c := fun a c hc => by
      rw [Function.update_of_ne hc]
    -- below the level the maximal entries are those of the others, above it only `j`
    have hlow : ∀ a ∈ Set.Ioo (0 : ℝ) 1, a < θ → ∀ c, (∀ c', gumbel (logits c') (Function.update z j a c') ≤
        gumbel (logits c) (Function.update z j a c)) ↔ c ≠ j ∧ g c = v := by
      intro a ha hlt c
      have hja : gumbel (logits j) a < v := hθ ▸ gumbel_lt_gumbel ha.1 h1 hlt
      constructor
      · intro h
        have hc : c ≠ j := by
          rintro rfl
          have := h m
          rw [hself, hoth a m hmj, ← hmv] at this
          linarith
        refine ⟨hc, le_antisymm (hvle c hc) ?_⟩
        have := h m
        rwa [hoth a c hc, hoth a m hmj, ← hmv] at this
      · rintro ⟨hc, hcv⟩ c'
        rw [hoth a c hc, hcv]
        by_cases h : c' = j
        · rw [h, hself]; exact hja.le
        · rw [hoth a c' h]; exact hvle c' h
    have hhigh : ∀ a ∈ Set.Ioo (0 : ℝ) 1, θ < a → ∀ c, (∀ c', gumbel (logits c') (Function.update z j a c') ≤
        gumbel (logits c) (Function.update z j a c)) ↔ c = j := by
      intro a ha hlt c
      have hja : v < gumbel (logits j) a := hθ ▸ gumbel_lt_gumbel h0 ha.2 hlt
      constructor
      · intro h
        by_contra hc
        have := h j
        rw [hself, hoth a c hc] at this
        linarith [hvle c hc]
      · rintro rfl c'
        by_cases h : c' = c
        · rw [h]
        · rw [hself, hoth a c' h]; linarith [hvle c' h]
    refine ⟨{θ}, by simp, fun a ha b hb hab h => ?_⟩
    refine ⟨θ, mem_singleton_self θ, ?_⟩
    by_contra hout
    refine h (argmax_congr fun c => ?_)
    rcases lt_or_ge θ a with hl | hl
    · rw [hhigh a ha hl, hhigh b hb (hl.trans_le hab)]
    · have hb' : b < θ := by
        by_contra hb'
        exact hout ⟨hl, not_lt.1 hb'⟩
      rw [hlow a ha (hab.trans_lt hb'), hlow b hb hb']

theorem measurable_gumbel (l : ℝ) : Measurable (gumbel l) := by
  unfold gumbel
  exact measurable_const.sub (Real.measurable_log.comp Real.measurable_log.neg)

theorem measurableSet_categoricalFrom (logits : Fin C → ℝ) (y : ℤ) : MeasurableSet {e | categoricalFrom logits e = y} := by
  classical
  let Φ : (Fin C → Bool) → ℤ := fun q => (((List.finRange C).find? fun c => q c).map fun c => ((c : ℕ) : ℤ)).getD 0
  let P : (Fin C → ℝ) → Fin C → Bool := fun e c => decide (∀ c', gumbel (logits c') (e c') ≤ gumbel (logits c) (e c))
  have hP : Measurable P := by
    refine measurable_pi_lambda _ fun c => measurable_to_bool ?_
    have : (fun e => P e c) ⁻¹' {true} = ⋂ c', {e | gumbel (logits c') (e c') ≤ gumbel (logits c) (e c)} := by
      ext e; simp [P]
    rw [this]
    exact .iInter fun c' => measurableSet_le ((measurable_gumbel _).comp (measurable_pi_apply c'))
      ((measurable_gumbel _).comp (measurable_pi_apply c))
  have : {e | categoricalFrom logits e = y} = P ⁻¹' {q | Φ q = y} := by
    ext e
    simp only [Set.mem_ofPred_eq, Set.mem_preimage, categoricalFrom, argmax, Φ, P]
  rw [this]
  exact hP (Set.toFinite _).measurableSet

/-- With ideal noise the draw has law `softmax`. -/
theorem categoricalFrom_softmax (hC : 0 < C) (logits : Fin C → ℝ) (c : Fin C) :
    noise (Fin C) {e | categoricalFrom logits e = ((c : ℕ) : ℤ)} = ENNReal.ofReal (softmax logits c) := by
  rw [← gumbel_max hC logits c]
  have hfull := raceSet_full logits (fun idx : Fin 1 → Fin C => List.ofFn idx) (k := 1) (by omega)
    (fun _ => List.length_ofFn) List.ofFn_injective (seqDraw_total (by omega) fun j => Real.exp_pos (logits j))
  refine measure_congr ?_
  filter_upwards [compl_mem_ae_iff.2 hfull] with e he
  rw [compl_compl, Set.mem_iUnion] at he
  obtain ⟨idx, he⟩ := he
  have hl : List.ofFn idx = [idx 0] := by simp
  rw [hl] at he
  have h1 : topK (fun j => gumbel (logits j) (e j)) 1 = [idx 0] := raceSet_topK he (by simp; omega)
  have h2 : categoricalFrom logits e = ((idx 0 : ℕ) : ℤ) :=
    argmax_eq fun c' hc' => (raceSet_order he).2 _ (by simp) c' (by simpa using hc')
  refine propext ⟨fun h => ?_, fun h => ?_⟩
  · have : idx 0 = c := Fin.ext (by have := h2.symm.trans h; exact_mod_cast this)
    change topK _ 1 = [c]
    rw [h1, this]
  · have : idx 0 = c := by
      have := h1.symm.trans h
      simpa using this
    change categoricalFrom logits e = _
    rw [h2, this]

theorem noiseMin_pos : 0 < noiseMin := by unfold noiseMin; positivity

/-- C104 (one draw): with `M` noise values a categorical draw over `C` categories is within `2 C / M` of `softmax`. -/
theorem categoricalG_close {M : ℕ} (hM : 0 < M) (hM' : noiseMin < 1 / M) (hC : 0 < C) (logits : Fin C → ℝ) :
    ∑ c, |categoricalG M logits c - softmax logits c| ≤ 2 * (C / M) := by
  have := gridLaw_close hM noiseMin_pos hM' (measurableSet_categoricalFrom logits) (categoricalFrom_few logits)
    (univ.image fun c : Fin C => ((c : ℕ) : ℤ))
  rw [Finset.sum_image (fun c _ c' _ h => Fin.ext (by exact_mod_cast h)), Fintype.card_fin] at this
  refine le_trans (le_of_eq (Finset.sum_congr rfl fun c _ => ?_)) (this.trans (by rw [Nat.cast_one, mul_one]))
  have : Nonempty (Fin C) := ⟨⟨0, hC⟩⟩
  unfold categoricalG
  rw [categoricalFrom_softmax hC, ENNReal.toReal_ofReal (softmax_pos logits c).le]

/-- `argmax` is the index of a maximal entry. -/
theorem argmax_spec (hC : 0 < C) (v : Fin C → ℝ) : ∃ c : Fin C, argmax v = ((c : ℕ) : ℤ) ∧ ∀ c', v c' ≤ v c := by
  classical
  have : Nonempty (Fin C) := ⟨⟨0, hC⟩⟩
  obtain ⟨m, hm⟩ := Finite.exists_max v
  unfold argmax
  cases h : (List.finRange C).find? fun c => decide (∀ c', v c' ≤ v c) with
  | none => exact absurd (List.find?_eq_none.1 h m (List.mem_finRange m)) (by simpa using hm)
  | some c => exact ⟨c, by simp, by simpa using List.find?_some h⟩

theorem isProb_categoricalG {M : ℕ} (hM : 0 < M) (hC : 0 < C) (logits : Fin C → ℝ) : IsProb (categoricalG M logits) := by
  classical
  refine ⟨fun c => by unfold categoricalG gridLaw; positivity, ?_⟩
  unfold categoricalG gridLaw
  rw [← Finset.sum_div, ← Nat.cast_sum]
  have h := Finset.card_eq_sum_card_fiberwise (s := (univ : Finset (Fin C → Fin M)))
    (f := fun k => categoricalFrom logits fun i => max noiseMin (((k i : ℕ) : ℝ) / M))
    (t := univ.image fun c : Fin C => ((c : ℕ) : ℤ)) (fun k _ => by
      obtain ⟨c, hc, -⟩ := argmax_spec hC fun c => gumbel (logits c) (max noiseMin (((k c : ℕ) : ℝ) / M))
      exact Finset.mem_coe.2 (mem_image.2 ⟨c, mem_univ c, hc.symm⟩))
  rw [Finset.sum_image (fun c _ c' _ h => Fin.ext (by exact_mod_cast h)), Finset.card_univ, Fintype.card_fun,
    Fintype.card_fin, Fintype.card_fin] at h
  rw [Fintype.card_fin, div_eq_one_iff_eq (by positivity)]
  have h' : ((M ^ C : ℕ) : ℝ) = _ := congrArg Nat.cast h
  push_cast at h' ⊢
  rw [h']
  congr!

theorem law_close {X Ω : Type*} [Fintype Ω] [DecidableEq X] (p q : Ω → ℝ) (f : Ω → X) (S : Finset X) :
    ∑ y ∈ S, |law p f y - law q f y| ≤ ∑ ω, |p ω - q ω| := by
  calc ∑ y ∈ S, |law p f y - law q f y| ≤ ∑ y ∈ S, ∑ ω, if f ω = y then |p ω - q ω| else 0 := by
        refine Finset.sum_le_sum fun y _ => ?_
        unfold law
        rw [← Finset.sum_sub_distrib]
        refine (Finset.abs_sum_le_sum_abs _ _).trans (le_of_eq (Finset.sum_congr rfl fun ω _ => ?_))
        split_ifs <;> simp
    _ = ∑ ω, ∑ y ∈ S, if f ω = y then |p ω - q ω| else 0 := Finset.sum_comm
    _ ≤ ∑ ω, |p ω - q ω| := by
        refine Finset.sum_le_sum fun ω _ => ?_
        rw [Finset.sum_ite_eq]
        split_ifs
        · exact le_rfl
        · exact abs_nonneg _

/-- C104 (Gibbs): a run of `n` steps, each drawing from `M` noise values, moves the target by at most `n · 2 C / M`. -/
theorem gibbs_gridDraw_run (f : (Fin D → ℤ) → ℝ) (hC : 0 < C) (s : ℕ → GibbsState) {M : ℕ} (hM : 0 < M)
    (hM' : noiseMin < 1 / M) (n : ℕ) :
    NearlyInvariant (validStates C D) (fun x => Real.exp (f x))
      (iterate (validStates C D) (fun t => gibbsKernelG M f C (s t)) n) (n * (2 * (C / M))) := by
  refine nearlyInvariant_iterate (fun t => stochastic_law (fun x _ => isProb_categoricalG hM hC _)
    fun x _ k => addAtMod_valid hC x _ _) (fun t => ?_) n
  have := NearlyInvariant.of_close (L := gibbsKernelG M f C (s t)) (δ := 2 * (C / M)) (fun x _ => (Real.exp_pos (f x)).le)
    (nearlyInvariant_zero_iff.2 (invariant_of_reversible (gibbs_reversible f hC (s t)) (gibbs_stochastic f hC (s t))))
    fun x _ => (law_close _ _ _ _).trans (categoricalG_close hM hM' hC _)
  rwa [zero_add] at this

/-- C104 (block Gibbs): the same with one category per assignment of the block. -/
theorem blockGibbs_gridDraw_run (f : (Fin D → ℤ) → ℝ) (hC : 0 < C) (b : ℕ) (s : ℕ → BlockState) {M : ℕ} (hM : 0 < M)
    (hM' : noiseMin < 1 / M) (n : ℕ) :
    NearlyInvariant (validStates C D) (fun x => Real.exp (f x))
      (iterate (validStates C D) (fun t => blockGibbsKernelG M f C b (s t)) n) (n * (2 * ((C : ℝ) ^ b / M))) := by
  have hlen : (categoriesIter C b).length = C ^ b := by
    have := categoriesIter_count C D b ⟨0, 0, 0⟩
    simpa [blockGibbsUpdate] using this.symm
  have hpos : 0 < (categoriesIter C b).length := by rw [hlen]; positivity
  refine nearlyInvariant_iterate (fun t => stochastic_law (fun x _ => isProb_categoricalG hM hpos _)
    fun x hx k => setBlock_valid hx _ ((mem_categoriesIter _).1 (List.get_mem _ _))) (fun t => ?_) n
  have := NearlyInvariant.of_close (L := blockGibbsKernelG M f C b (s t)) (δ := 2 * ((C : ℝ) ^ b / M))
    (fun x _ => (Real.exp_pos (f x)).le)
    (nearlyInvariant_zero_iff.2
      (invariant_of_reversible (blockGibbs_reversible f C b (s t)) (blockGibbs_stochastic f hC (s t))))
    fun x _ => (law_close _ _ _ _).trans ((categoricalG_close hM hM' hpos _).trans (le_of_eq (by rw [hlen]; push_cast; rfl)))
  rwa [zero_add] at this

/-- The library's noise meets the hypotheses. -/
theorem noiseSize_ok : 0 < noiseSize ∧ noiseMin < 1 / (noiseSize : ℝ) := by
  unfold noiseSize noiseMin
  norm_num

/-- Non-trivial instance for C104: three categories with different scores, the library's `2 ^ 23` noise values. -/
example : ∑ c, |categoricalG noiseSize ![0, 1, -2] c - softmax ![0, 1, -2] c| ≤ 2 * ((3 : ℕ) / noiseSize) :=
  categoricalG_close noiseSize_ok.1 noiseSize_ok.2 (by norm_num) _

/-- The Gumbel noise of the library lies in `[-log 88, log (2 ^ 23)]`. -/
theorem gumbel_grid_bounds (l : ℝ) (k : Fin noiseSize) :
    l - Real.log 88 ≤ gumbel l (max noiseMin (((k : ℕ) : ℝ) / noiseSize)) ∧
      gumbel l (max noiseMin (((k : ℕ) : ℝ) / noiseSize)) ≤ l + Real.log noiseSize := by
  set u := max noiseMin (((k : ℕ) : ℝ) / noiseSize) with hu
  have hM : (0 : ℝ) < noiseSize := by exact_mod_cast noiseSize_ok.1
  have h0 : noiseMin ≤ u := le_max_left _ _
  have hu0 : 0 < u := noiseMin_pos.trans_le h0
  have hk : ((k : ℕ) : ℝ) + 1 ≤ noiseSize := by exact_mod_cast k.2
  have h1 : u ≤ 1 - 1 / noiseSize := by
    refine max_le ?_ ?_
    · have := noiseSize_ok.2
      have h2 : 1 / (noiseSize : ℝ) ≤ 1 / 2 := by
        refine one_div_le_one_div_of_le (by norm_num) ?_
        have : 2 ≤ noiseSize := by unfold noiseSize; norm_num
        exact_mod_cast this
      linarith
    · rw [div_le_iff₀ hM, sub_mul, one_mul, one_div, inv_mul_cancel₀ hM.ne']; linarith
  have hlog : 1 / (noiseSize : ℝ) ≤ -Real.log u := by
    have := Real.log_le_sub_one_of_pos hu0
    linarith
  have hpos : 0 < -Real.log u := (by positivity : (0 : ℝ) < 1 / noiseSize).trans_le hlog
  have hup : -Real.log u ≤ 88 := by
    have h2 : Real.log noiseMin ≤ Real.log u := Real.log_le_log noiseMin_pos h0
    have h3 : Real.log noiseMin = -(126 * Real.log 2) := by
      unfold noiseMin
      rw [one_div, Real.log_inv, Real.log_pow]; norm_num
    have := Real.log_two_lt_d9
    linarith
  unfold gumbel
  constructor
  · have := Real.log_le_log hpos hup
    linarith
  · have := Real.log_le_log (by positivity) hlog
    rw [one_div, Real.log_inv] at this
    linarith

/-- C104 (never drawn): a category whose logit is lower than another's by 21 has probability zero (and a positive
probability under `softmax`). -/
theorem categoricalG_never (logits : Fin C → ℝ) {c c' : Fin C} (h : logits c + 21 ≤ logits c') :
    categoricalG noiseSize logits c = 0 ∧ 0 < softmax logits c := by
  have : Nonempty (Fin C) := ⟨c⟩
  refine ⟨?_, softmax_pos logits c⟩
  unfold categoricalG gridLaw
  rw [div_eq_zero_iff]
  left
  rw [Nat.cast_eq_zero, Finset.card_eq_zero]
  refine Finset.eq_empty_iff_forall_notMem.2 fun k hk => ?_
  replace hk := (@Finset.mem_filter _ _ (_) _ _).1 hk |>.2
  obtain ⟨m, hm, hmax⟩ := argmax_spec c.pos fun i => gumbel (logits i) (max noiseMin (((k i : ℕ) : ℝ) / noiseSize))
  have hmc : m = c := Fin.ext (by have := hm.symm.trans hk; exact_mod_cast this)
  have h1 := hmax c'
  rw [hmc] at h1
  have h2 := (gumbel_grid_bounds (logits c') (k c')).1
  have h3 := (gumbel_grid_bounds (logits c) (k c)).2
  have h4 : Real.log (88 * noiseSize) < 21 := by
    rw [Real.log_lt_iff_lt_exp (by have := noiseSize_ok.1; positivity)]
    have he : Real.exp 21 = Real.exp 1 ^ 21 := by rw [← Real.exp_nat_mul]; norm_num
    rw [he]
    refine lt_of_lt_of_le ?_ (pow_le_pow_left₀ (by norm_num) Real.exp_one_gt_d9.le 21)
    unfold noiseSize
    norm_num
  rw [Real.log_mul (by norm_num) (by have := noiseSize_ok.1; positivity)] at h4
  linarith

/-- C104 (trapped): if every single-site change of `x` lowers the log-likelihood by at least 21, a Gibbs run started at `x`
is at `x` after any number of steps, with probability one. -/
theorem gibbs_gridDraw_trapped (f : (Fin D → ℤ) → ℝ) (hC : 0 < C) {x : Fin D → ℤ} (hx : x ∈ validStates C D)
    (hloc : ∀ (i : Fin D) (v : ℤ), 0 ≤ v → v < C → v ≠ x i → f (Function.update x i v) + 21 ≤ f x)
    (s : ℕ → GibbsState) (n : ℕ) :
    iterate (validStates C D) (fun t => gibbsKernelG noiseSize f C (s t)) n x x = 1 := by
  have hval := mem_validStates.1 hx
  have hprob := fun l => isProb_categoricalG (M := noiseSize) noiseSize_ok.1 hC l
  have hst : ∀ t, Stochastic (validStates C D) (gibbsKernelG noiseSize f C (s t)) := fun t =>
    stochastic_law (fun x _ => hprob _) fun x _ k => addAtMod_valid hC x _ _
  have hstep : ∀ t, gibbsKernelG noiseSize f C (s t) x x = 1 := by
    intro t
    rw [← (hprob (gibbsScores f C x (s t).index)).2]
    unfold gibbsKernelG law
    refine Finset.sum_congr rfl fun k _ => ?_
    split_ifs with hk
    · rfl
    · symm
      refine (categoricalG_never (c' := ⟨0, hC⟩) _ ?_).1
      have hk' : addAtMod C x (s t).index ((k : ℕ) : ℤ) ≠ x := hk
      have hk0 : (k : ℕ) ≠ 0 := by
        intro h0
        refine hk' ?_
        rw [h0]
        funext j
        unfold addAtMod
        split_ifs
        · rw [Nat.cast_zero, add_zero]; exact Int.emod_eq_of_lt (hval j).1 (hval j).2
        · exact Int.emod_eq_of_lt (hval j).1 (hval j).2
      unfold gibbsScores
      rw [if_neg hk0, if_pos rfl]
      by_cases hi : (s t).index < D
      · have e : addAtMod C x (s t).index ((k : ℕ) : ℤ) =
            Function.update x ⟨(s t).index, hi⟩ ((x ⟨(s t).index, hi⟩ + ((k : ℕ) : ℤ)) % C) := by
          funext j
          unfold addAtMod
          by_cases hj : j = ⟨(s t).index, hi⟩
          · subst hj; rw [if_pos rfl, Function.update_self]
          · rw [if_neg (fun h => hj (Fin.ext h)), Function.update_of_ne hj]
            exact Int.emod_eq_of_lt (hval j).1 (hval j).2
        rw [e]
        rw [e] at hk'
        refine hloc _ _ (Int.emod_nonneg _ (by omega)) (Int.emod_lt_of_pos _ (by omega)) fun h => hk' ?_
        rw [h, Function.update_eq_self]
      · refine absurd ?_ hk'
        funext j
        unfold addAtMod
        rw [if_neg (by have := j.2; omega)]
        exact Int.emod_eq_of_lt (hval j).1 (hval j).2
  induction n with
  | zero => simp [iterate]
  | succ n ih =>
    have hs : Stochastic (validStates C D) (iterate (validStates C D) (fun t => gibbsKernelG noiseSize f C (s t)) n) :=
      stochastic_iterate hst n
    change comp _ _ _ x x = 1
    unfold comp
    have hz : ∀ z ∈ validStates C D, z ≠ x →
        iterate (validStates C D) (fun t => gibbsKernelG noiseSize f C (s t)) n x z = 0 := by
      intro z hz hne
      have h1 := hs.2.1 x hx
      rw [← Finset.add_sum_erase _ _ hx, ih] at h1
      have h2 : ∑ z ∈ (validStates C D).erase x,
          iterate (validStates C D) (fun t => gibbsKernelG noiseSize f C (s t)) n x z = 0 := by linarith
      exact (Finset.sum_eq_zero_iff_of_nonneg fun z _ => hs.1 x hx z).1 h2 z (mem_erase.2 ⟨hne, hz⟩)
    rw [Finset.sum_eq_single_of_mem x hx fun z hz' hne => by rw [hz z hz' hne, zero_mul], ih, one_mul]
    exact hstep n

/-- Two coupled sites: equal values are preferred by a factor `e ^ 30`. -/
def twoWells : (Fin 2 → ℤ) → ℝ := fun x => if x 0 = x 1 then 0 else -30

/-- C104 (convergence refuted): with the library's noise the Gibbs chain on two coupled binary sites never leaves `00`, a
state of probability below one half; the ideal chain converges to the target. -/
theorem gibbs_gridDraw_refuted :
    (∀ n, 1 ≤ l1 (validStates 2 2) (iterate (validStates 2 2)
        (fun t => gibbsKernelG noiseSize twoWells 2 ((gibbsUpdate 2 2)^[t] gibbsInit)) n ![0, 0])
      (target (validStates 2 2) fun x => Real.exp (twoWells x))) ∧
    Ergodic (validStates 2 2) (fun x => Real.exp (twoWells x))
      (fun t => gibbsKernel twoWells 2 ((gibbsUpdate 2 2)^[t] gibbsInit)) := by
  have h00 : (![0, 0] : Fin 2 → ℤ) ∈ validStates 2 2 := mem_validStates.2 fun j => by fin_cases j <;> simp
  have h11 : (![1, 1] : Fin 2 → ℤ) ∈ validStates 2 2 := mem_validStates.2 fun j => by fin_cases j <;> simp
  constructor
  · intro n
    set K := iterate (validStates 2 2)
      (fun t => gibbsKernelG noiseSize twoWells 2 ((gibbsUpdate 2 2)^[t] gibbsInit)) n ![0, 0] with hK
    set T := target (validStates 2 2) fun x => Real.exp (twoWells x) with hT
    have h1 : K ![0, 0] = 1 := by
      refine gibbs_gridDraw_trapped twoWells (by norm_num) h00 (fun i v h0 h2 hv => ?_) _ n
      have hv1 : v = 1 := by
        have : v ≠ 0 := by fin_cases i <;> simpa using hv
        push_cast at h2; omega
      subst hv1
      unfold twoWells
      fin_cases i <;> simp [Function.update] <;> norm_num
    have hst : Stochastic (validStates 2 2) (iterate (validStates 2 2)
        (fun t => gibbsKernelG noiseSize twoWells 2 ((gibbsUpdate 2 2)^[t] gibbsInit)) n) :=
      stochastic_iterate (fun t => stochastic_law (fun x _ => isProb_categoricalG noiseSize_ok.1 (by norm_num) _)
        fun x _ k => addAtMod_valid (by norm_num) x _ _) n
    have h2 : K ![1, 1] = 0 := by
      have hs := hst.2.1 _ h00
      rw [← Finset.add_sum_erase _ _ h00] at hs
      have h3 : ∑ z ∈ (validStates 2 2).erase ![0, 0], K z = 0 := by linarith
      exact (Finset.sum_eq_zero_iff_of_nonneg fun z _ => hst.1 _ h00 z).1 h3 _ (mem_erase.2 ⟨by decide, h11⟩)
    have h4 : T ![0, 0] = T ![1, 1] := by simp [hT, target, twoWells]
    have h5 : 0 ≤ T ![1, 1] := by
      simp only [hT, target]
      exact div_nonneg (Real.exp_pos _).le (Finset.sum_nonneg fun _ _ => (Real.exp_pos _).le)
    unfold l1
    calc (1 : ℝ) ≤ |K ![0, 0] - T ![0, 0]| + |K ![1, 1] - T ![1, 1]| := by
          rw [h1, h2, h4]
          have a := le_abs_self (1 - T ![1, 1])
          have b := neg_le_abs (0 - T ![1, 1])
          linarith
      _ = ∑ y ∈ {![0, 0], ![1, 1]}, |K y - T y| := by rw [Finset.sum_pair (by decide)]
      _ ≤ ∑ y ∈ validStates 2 2, |K y - T y| :=
          Finset.sum_le_sum_of_subset_of_nonneg (by
            intro y hy
            rcases mem_insert.1 hy with h | h
            · exact h ▸ h00
            · exact mem_singleton.1 h ▸ h11) fun _ _ _ => abs_nonneg _
  · obtain ⟨c, h0, h1, h⟩ := gibbs_converges twoWells (C := 2) (D := 2) (by norm_num) (by norm_num)
    exact ⟨2, by norm_num, c, h0, h1, by simpa using h 0⟩

/-- C104 (ties): with finitely many noise values, the mask form of sampling without replacement (`math_util.py:119-125`)
asked for `k < n` of `n` equally likely sites selects all `n` with positive probability. -/
theorem selectedMask_ties {n k M : ℕ} (hk : 1 ≤ k) (hkn : k < n) (hM : 2 ≤ M) (l : ℝ) :
    0 < gridLaw M 0 (fun e : Fin n → ℝ => (selectedMask (fun i => gumbel l (e i)) k).map fun sel => {i | sel i}.ncard)
      (some n) := by
  unfold gridLaw
  refine div_pos (Nat.cast_pos.2 (Finset.card_pos.2 ⟨fun _ => ⟨1, hM⟩, ?_⟩)) (by positivity)
  refine (@Finset.mem_filter _ _ (_) _ _).2 ⟨@Finset.mem_univ _ (_) _, ?_⟩
  set g : Fin n → ℝ := fun _ => gumbel l (max 0 (((1 : ℕ) : ℝ) / M)) with hg
  change (selectedMask g k).map (fun sel => {i | sel i}.ncard) = some n
  unfold selectedMask
  rw [if_pos ⟨hk, hkn.le⟩]
  have hlen : n - k < (sortAsc g).length := by
    unfold sortAsc
    rw [List.length_mergeSort, List.length_map, List.length_finRange]; omega
  have hmem : (sortAsc g)[n - k] ∈ (List.finRange n).map g := List.mem_mergeSort.1 (List.getElem_mem hlen)
  obtain ⟨j, -, hj⟩ := List.mem_map.1 hmem
  rw [List.getElem?_eq_getElem hlen]
  have hall : {i | (sortAsc g)[n - k] ≤ g i} = Set.univ := Set.eq_univ_of_forall fun i => hj.symm.le
  simp only [Option.map_some, Option.some.injEq]
  rw [hall, Set.ncard_univ, Nat.card_eq_fintype_card, Fintype.card_fin]

end Discs
