import Verif.Model.MathUtil
import Verif.Lemmas.Markov
import Mathlib.MeasureTheory.Function.SpecialFunctions.Basic

/-! # Helper lemmas: acceptance probability, path Metropolis–Hastings -/

namespace Discs.Spec

open Finset MeasureTheory

/-- The probability with which a proposal with log acceptance ratio `lp` is taken. -/
noncomputable def acceptProb (tiny lp : ℝ) : ℝ := max 0 (min 1 (Real.exp lp - tiny))

theorem acceptProb_nonneg (tiny lp : ℝ) : 0 ≤ acceptProb tiny lp := le_max_left _ _

theorem acceptProb_le_one (tiny lp : ℝ) : acceptProb tiny lp ≤ 1 :=
  max_le zero_le_one (min_le_left _ _)

theorem acceptProb_zero (lp : ℝ) : acceptProb 0 lp = min 1 (Real.exp lp) := by
  unfold acceptProb
  rw [sub_zero, max_eq_right]
  exact le_min zero_le_one (Real.exp_pos _).le

theorem acceptProb_close {tiny : ℝ} (h0 : 0 ≤ tiny) (lp : ℝ) :
    |acceptProb tiny lp - acceptProb 0 lp| ≤ tiny := by
  rw [acceptProb_zero]
  unfold acceptProb
  have he := Real.exp_pos lp
  rw [abs_le]
  constructor
  · rcases le_total 1 (Real.exp lp) with h | h
    · rw [min_eq_left h]
      have : 1 - tiny ≤ max 0 (min 1 (Real.exp lp - tiny)) :=
        le_max_of_le_right (le_min (by linarith) (by linarith))
      linarith
    · rw [min_eq_right h]
      have : Real.exp lp - tiny ≤ max 0 (min 1 (Real.exp lp - tiny)) :=
        le_max_of_le_right (le_min (by linarith) le_rfl)
      linarith
  · have : max 0 (min 1 (Real.exp lp - tiny)) ≤ min 1 (Real.exp lp) :=
      max_le (le_min zero_le_one he.le) (min_le_min le_rfl (by linarith))
    linarith

/-- Measure of the noise values on which the acceptance test succeeds. -/
theorem volume_accept {tiny : ℝ} (h0 : 0 ≤ tiny) (lp : ℝ) :
    (volume {u : ℝ | u ∈ Set.Ico (0 : ℝ) 1 ∧ bernoulliLogp tiny u lp}).toReal =
      acceptProb tiny lp := by
  have hset : {u : ℝ | u ∈ Set.Ico (0 : ℝ) 1 ∧ bernoulliLogp tiny u lp} =ᵐ[volume]
      Set.Ico (0 : ℝ) (max 0 (min 1 (Real.exp lp - tiny))) := by
    have h0' : ∀ᵐ u : ℝ ∂volume, u ≠ 0 := by
      have : (volume : Measure ℝ) {0} = 0 := by simp
      exact measure_eq_zero_iff_ae_notMem.1 this
    filter_upwards [h0'] with u hu
    apply propext
    show (u ∈ Set.Ico (0 : ℝ) 1 ∧ bernoulliLogp tiny u lp) ↔ u ∈ Set.Ico (0 : ℝ) _
    unfold bernoulliLogp
    constructor
    · rintro ⟨⟨h1, h2⟩, h3⟩
      have hpos : 0 < u + tiny := by
        have := lt_of_le_of_ne h1 (Ne.symm hu); linarith
      rw [Real.log_lt_iff_lt_exp hpos] at h3
      exact ⟨h1, lt_max_of_lt_right (lt_min h2 (by linarith))⟩
    · rintro ⟨h1, h2⟩
      have hpos : 0 < u + tiny := by
        have := lt_of_le_of_ne h1 (Ne.symm hu); linarith
      rcases lt_max_iff.1 h2 with h | h
      · exact absurd h (not_lt.2 h1)
      · have := lt_min_iff.1 h
        exact ⟨⟨h1, this.1⟩, by rw [Real.log_lt_iff_lt_exp hpos]; linarith⟩
  rw [measure_congr hset, Real.volume_Ico, sub_zero, ENNReal.toReal_ofReal (le_max_left _ _)]
  rfl

theorem volume_unit : (volume {u : ℝ | u ∈ Set.Ico (0 : ℝ) 1}).toReal = 1 := by
  have : {u : ℝ | u ∈ Set.Ico (0 : ℝ) 1} = Set.Ico (0 : ℝ) 1 := rfl
  rw [this, Real.volume_Ico]; simp

theorem measurable_accept (tiny lp : ℝ) :
    MeasurableSet {u : ℝ | u ∈ Set.Ico (0 : ℝ) 1 ∧ bernoulliLogp tiny u lp} := by
  unfold bernoulliLogp
  refine measurableSet_Ico.inter ?_
  exact measurableSet_lt (Real.measurable_log.comp (measurable_id.add_const tiny)) measurable_const

/-- Measure of the noise values on which the acceptance test fails. -/
theorem volume_reject {tiny : ℝ} (h0 : 0 ≤ tiny) (lp : ℝ) :
    (volume {u : ℝ | u ∈ Set.Ico (0 : ℝ) 1 ∧ ¬ bernoulliLogp tiny u lp}).toReal =
      1 - acceptProb tiny lp := by
  have hd : {u : ℝ | u ∈ Set.Ico (0 : ℝ) 1 ∧ ¬ bernoulliLogp tiny u lp} =
      Set.Ico (0 : ℝ) 1 \ {u : ℝ | u ∈ Set.Ico (0 : ℝ) 1 ∧ bernoulliLogp tiny u lp} := by
    ext u; simp only [Set.mem_ofPred_eq, Set.mem_sdiff]; tauto
  have hfin : volume {u : ℝ | u ∈ Set.Ico (0 : ℝ) 1 ∧ bernoulliLogp tiny u lp} ≠ ⊤ :=
    ne_top_of_le_ne_top (by rw [Real.volume_Ico]; exact ENNReal.ofReal_ne_top)
      (measure_mono (t := Set.Ico (0 : ℝ) 1) fun u hu => hu.1)
  rw [hd, measure_sdiff (fun u hu => hu.1) (measurable_accept tiny lp).nullMeasurableSet hfin,
    ENNReal.toReal_sub_of_le (measure_mono fun u hu => hu.1)
      (by rw [Real.volume_Ico]; exact ENNReal.ofReal_ne_top), volume_accept h0]
  rw [Real.volume_Ico]; simp

variable {X Ω : Type*}

/-- Closed form of the law of "draw `ω`, then accept `m ω` with log-ratio `l ω`, else stay at `x`". -/
theorem lawU_mh [Fintype Ω] [DecidableEq X] {tiny : ℝ} (h0 : 0 ≤ tiny) (p : Ω → ℝ) (l : Ω → ℝ)
    (m : Ω → X) (x y : X) (f : Ω → ℝ → X)
    (hacc : ∀ ω u, bernoulliLogp tiny u (l ω) → f ω u = m ω)
    (hrej : ∀ ω u, ¬ bernoulliLogp tiny u (l ω) → f ω u = x) :
    lawU p f y = ∑ ω, p ω * ((if m ω = y then acceptProb tiny (l ω) else 0) +
      (if x = y then 1 - acceptProb tiny (l ω) else 0)) := by
  unfold lawU
  refine Finset.sum_congr rfl fun ω _ => ?_
  congr 1
  by_cases h1 : m ω = y <;> by_cases h2 : x = y
  · have : {u : ℝ | u ∈ Set.Ico (0 : ℝ) 1 ∧ f ω u = y} = {u : ℝ | u ∈ Set.Ico (0 : ℝ) 1} := by
      ext u; simp only [Set.mem_ofPred_eq, and_iff_left_iff_imp]
      intro _
      by_cases hb : bernoulliLogp tiny u (l ω)
      · rw [hacc ω u hb, h1]
      · rw [hrej ω u hb, h2]
    rw [this, volume_unit, if_pos h1, if_pos h2]; ring
  · have : {u : ℝ | u ∈ Set.Ico (0 : ℝ) 1 ∧ f ω u = y} =
        {u : ℝ | u ∈ Set.Ico (0 : ℝ) 1 ∧ bernoulliLogp tiny u (l ω)} := by
      ext u; simp only [Set.mem_ofPred_eq]
      refine and_congr_right fun _ => ?_
      by_cases hb : bernoulliLogp tiny u (l ω)
      · simp [hacc ω u hb, h1, hb]
      · simp [hrej ω u hb, h2, hb]
    rw [this, volume_accept h0, if_pos h1, if_neg h2]; ring
  · have : {u : ℝ | u ∈ Set.Ico (0 : ℝ) 1 ∧ f ω u = y} =
        {u : ℝ | u ∈ Set.Ico (0 : ℝ) 1 ∧ ¬ bernoulliLogp tiny u (l ω)} := by
      ext u; simp only [Set.mem_ofPred_eq]
      refine and_congr_right fun _ => ?_
      by_cases hb : bernoulliLogp tiny u (l ω)
      · simp [hacc ω u hb, h1, hb]
      · simp [hrej ω u hb, h2, hb]
    rw [this, volume_reject h0, if_neg h1, if_pos h2]; ring
  · have : {u : ℝ | u ∈ Set.Ico (0 : ℝ) 1 ∧ f ω u = y} = ∅ := by
      ext u; simp only [Set.mem_ofPred_eq, Set.mem_empty_iff_false, iff_false, not_and]
      intro _
      by_cases hb : bernoulliLogp tiny u (l ω)
      · rw [hacc ω u hb]; exact h1
      · rw [hrej ω u hb]; exact h2
    rw [this, if_neg h1, if_neg h2]; simp

/-- Abstract MH kernel with acceptance function `A`. -/
noncomputable def mhKernel [Fintype Ω] [DecidableEq X] (q : X → Ω → ℝ) (move : X → Ω → X)
    (A : X → Ω → ℝ) (x y : X) : ℝ :=
  ∑ ω, q x ω * ((if move x ω = y then A x ω else 0) + (if x = y then 1 - A x ω else 0))

theorem stochastic_mhKernel [Fintype Ω] [DecidableEq X] {S : Finset X} {q : X → Ω → ℝ}
    {move : X → Ω → X} {A : X → Ω → ℝ} (hq : ∀ x ∈ S, IsProb (q x))
    (hmove : ∀ x ∈ S, ∀ ω, q x ω ≠ 0 → move x ω ∈ S) (hA0 : ∀ x ω, 0 ≤ A x ω) (hA1 : ∀ x ω, A x ω ≤ 1) :
    Stochastic S (mhKernel q move A) := by
  refine ⟨fun x hx y => Finset.sum_nonneg fun ω _ => mul_nonneg ((hq x hx).1 ω) (add_nonneg ?_ ?_),
    fun x hx => ?_, fun x hx y hy => Finset.sum_eq_zero fun ω _ => ?_⟩
  · split_ifs; exacts [hA0 x ω, le_rfl]
  · split_ifs; exacts [sub_nonneg.2 (hA1 x ω), le_rfl]
  · unfold mhKernel
    rw [Finset.sum_comm]
    refine Eq.trans (Finset.sum_congr rfl fun ω _ => ?_) (hq x hx).2
    rw [← Finset.mul_sum, Finset.sum_add_distrib, Finset.sum_ite_eq, Finset.sum_ite_eq]
    by_cases h : q x ω = 0
    · rw [h, zero_mul]
    · rw [if_pos (hmove x hx ω h), if_pos hx, add_sub_cancel, mul_one]
  · have h2 : x ≠ y := fun h => hy (h ▸ hx)
    by_cases h : q x ω = 0
    · rw [h, zero_mul]
    · have h1 : move x ω ≠ y := fun h' => hy (h' ▸ hmove x hx ω h)
      rw [if_neg h1, if_neg h2]; ring

/-- Flow identity: sums over the draws leading from `x` to `y` are re-indexed by path reversal. -/
theorem sum_paths_reverse [Fintype Ω] [DecidableEq X] {move : X → Ω → X} {rev : X → Ω → Ω}
    {x y : X} (P : Ω → Prop) (P' : Ω → Prop)
    [DecidablePred P] [DecidablePred P']
    (h1 : ∀ ω, P ω → move x ω = y → move y (rev x ω) = x ∧ rev y (rev x ω) = ω ∧ P' (rev x ω))
    (h2 : ∀ ω, P' ω → move y ω = x → move x (rev y ω) = y ∧ rev x (rev y ω) = ω ∧ P (rev y ω))
    (G : Ω → ℝ) :
    ∑ ω, (if P ω ∧ move x ω = y then G (rev x ω) else 0) =
      ∑ ω, if P' ω ∧ move y ω = x then G ω else 0 := by
  rw [← Finset.sum_filter, ← Finset.sum_filter]
  refine Finset.sum_bij' (fun ω _ => rev x ω) (fun ω _ => rev y ω) ?_ ?_ ?_ ?_ ?_
  · intro ω hω; simp only [mem_filter, mem_univ, true_and] at hω ⊢
    have := h1 ω hω.1 hω.2; exact ⟨this.2.2, this.1⟩
  · intro ω hω; simp only [mem_filter, mem_univ, true_and] at hω ⊢
    have := h2 ω hω.1 hω.2; exact ⟨this.2.2, this.1⟩
  · intro ω hω; simp only [mem_filter, mem_univ, true_and] at hω
    exact (h1 ω hω.1 hω.2).2.1
  · intro ω hω; simp only [mem_filter, mem_univ, true_and] at hω
    exact (h2 ω hω.1 hω.2).2.1
  · intro ω _; rfl

/-- The data of a Metropolis–Hastings sampler with auxiliary path `ω`: reversing the path `ω` taken
from `x` gives the path `rev x ω` leading back, `lacc` is the log acceptance ratio the code computes. -/
structure PathMH [Fintype Ω] (S : Finset X) (π : X → ℝ) (q : X → Ω → ℝ) (move : X → Ω → X)
    (rev : X → Ω → Ω) (lacc : X → Ω → ℝ) : Prop where
  pi_pos : ∀ x ∈ S, 0 < π x
  prob : ∀ x ∈ S, IsProb (q x)
  closed : ∀ x ∈ S, ∀ ω, q x ω ≠ 0 → move x ω ∈ S
  back : ∀ x ∈ S, ∀ ω, q x ω ≠ 0 → move x ω ≠ x → move (move x ω) (rev x ω) = x
  invol : ∀ x ∈ S, ∀ ω, q x ω ≠ 0 → move x ω ≠ x → rev (move x ω) (rev x ω) = ω
  /-- the computed log ratio is the true log ratio of the two path flows -/
  ratio : ∀ x ∈ S, ∀ ω, q x ω ≠ 0 → move x ω ≠ x →
    π (move x ω) * q (move x ω) (rev x ω) = Real.exp (lacc x ω) * (π x * q x ω)
  antisymm : ∀ x ∈ S, ∀ ω, q x ω ≠ 0 → move x ω ≠ x →
    lacc (move x ω) (rev x ω) = - lacc x ω

theorem min_flow (F r : ℝ) (hr : 0 < r) :
    F * min 1 r = (r * F) * min 1 r⁻¹ := by
  rcases le_total 1 r with h | h
  · rw [min_eq_left h, min_eq_right (inv_le_one_of_one_le₀ h)]
    field_simp
  · rw [min_eq_right h, min_eq_left ((one_le_inv₀ hr).2 h)]; ring

/-- The flow out of `x` along paths to `y ≠ x`, compared with the reverse flow. -/
theorem PathMH.flow [Fintype Ω] [DecidableEq X] {S : Finset X} {π : X → ℝ} {q : X → Ω → ℝ}
    {move : X → Ω → X} {rev : X → Ω → Ω} {lacc : X → Ω → ℝ} (H : PathMH S π q move rev lacc)
    {tiny : ℝ} (h0 : 0 ≤ tiny) {x y : X} (hx : x ∈ S) (hy : y ∈ S) (hxy : x ≠ y) :
    |π x * mhKernel q move (fun x ω => acceptProb tiny (lacc x ω)) x y -
      π y * mhKernel q move (fun x ω => acceptProb tiny (lacc x ω)) y x| ≤
      tiny * (π x * law (q x) (move x) y + π y * law (q y) (move y) x) := by
  classical
  have hne : ∀ x ∈ S, ∀ ω, q x ω ≠ 0 → move x ω ≠ x → q (move x ω) (rev x ω) ≠ 0 := by
    intro x hx ω hq hm h
    have := H.ratio x hx ω hq hm
    rw [h, mul_zero] at this
    have hp : 0 < q x ω := lt_of_le_of_ne ((H.prob x hx).1 ω) (Ne.symm hq)
    have : 0 < Real.exp (lacc x ω) * (π x * q x ω) :=
      mul_pos (Real.exp_pos _) (mul_pos (H.pi_pos x hx) hp)
    linarith
  have hker : ∀ x y : X, x ≠ y → π x * mhKernel q move (fun x ω => acceptProb tiny (lacc x ω)) x y =
      ∑ ω, if q x ω ≠ 0 ∧ move x ω = y then π x * q x ω * acceptProb tiny (lacc x ω) else 0 := by
    intro x y hxy
    unfold mhKernel
    rw [Finset.mul_sum]
    refine Finset.sum_congr rfl fun ω _ => ?_
    by_cases hq : q x ω = 0
    · simp [hq]
    · by_cases hm : move x ω = y
      · simp only [hq, hm, hxy, ne_eq, not_false_eq_true, true_and, if_true, if_false]; ring
      · simp [hm, hxy]
  have hlaw : ∀ x y : X, π x * law (q x) (move x) y =
      ∑ ω, if q x ω ≠ 0 ∧ move x ω = y then π x * q x ω else 0 := by
    intro x y
    unfold law
    rw [Finset.mul_sum]
    refine Finset.sum_congr rfl fun ω _ => ?_
    by_cases hq : q x ω = 0
    · simp [hq]
    · by_cases hm : move x ω = y <;> simp [hq, hm]
  have hrev : ∀ G : Ω → ℝ, ∑ ω, (if q x ω ≠ 0 ∧ move x ω = y then G (rev x ω) else 0) =
      ∑ ω, if q y ω ≠ 0 ∧ move y ω = x then G ω else 0 := by
    intro G
    refine sum_paths_reverse (move := move) (rev := rev) (fun ω => q x ω ≠ 0) (fun ω => q y ω ≠ 0)
      ?_ ?_ G
    · rintro ω hq rfl
      exact ⟨H.back x hx ω hq hxy.symm, H.invol x hx ω hq hxy.symm, hne x hx ω hq hxy.symm⟩
    · rintro ω hq rfl
      exact ⟨H.back y hy ω hq hxy, H.invol y hy ω hq hxy, hne y hy ω hq hxy⟩
  rw [hker x y hxy, hker y x hxy.symm, hlaw x y, hlaw y x]
  rw [← hrev (fun ω => π y * q y ω * acceptProb tiny (lacc y ω)), ← hrev (fun ω => π y * q y ω)]
  rw [← Finset.sum_sub_distrib, ← Finset.sum_add_distrib, Finset.mul_sum]
  refine (Finset.abs_sum_le_sum_abs _ _).trans (Finset.sum_le_sum fun ω _ => ?_)
  by_cases hc : q x ω ≠ 0 ∧ move x ω = y
  · simp only [if_pos hc]
    obtain ⟨hq, rfl⟩ := hc
    have hr := H.ratio x hx ω hq hxy.symm
    have ha := H.antisymm x hx ω hq hxy.symm
    have hF : 0 ≤ π x * q x ω := mul_nonneg (H.pi_pos x hx).le ((H.prob x hx).1 ω)
    have hG : 0 ≤ π (move x ω) * q (move x ω) (rev x ω) := by
      rw [hr]; exact mul_nonneg (Real.exp_pos _).le hF
    rw [ha]
    set F := π x * q x ω with hFdef
    set G := π (move x ω) * q (move x ω) (rev x ω) with hGdef
    have hbal : F * acceptProb 0 (lacc x ω) = G * acceptProb 0 (- lacc x ω) := by
      rw [acceptProb_zero, acceptProb_zero, Real.exp_neg, hr]
      exact min_flow F _ (Real.exp_pos _)
    have e1 := acceptProb_close h0 (lacc x ω)
    have e2 := acceptProb_close h0 (- lacc x ω)
    have : F * acceptProb tiny (lacc x ω) - G * acceptProb tiny (- lacc x ω) =
        F * (acceptProb tiny (lacc x ω) - acceptProb 0 (lacc x ω)) -
        G * (acceptProb tiny (- lacc x ω) - acceptProb 0 (- lacc x ω)) := by linear_combination hbal
    rw [this]
    refine (abs_sub _ _).trans ?_
    rw [abs_mul F, abs_mul G, abs_of_nonneg hF, abs_of_nonneg hG]
    nlinarith [mul_le_mul_of_nonneg_left e1 hF, mul_le_mul_of_nonneg_left e2 hG]
  · simp only [if_neg hc]; simp

/-- With the ideal acceptance test the kernel is reversible. -/
theorem PathMH.reversible [Fintype Ω] [DecidableEq X] {S : Finset X} {π : X → ℝ} {q : X → Ω → ℝ}
    {move : X → Ω → X} {rev : X → Ω → Ω} {lacc : X → Ω → ℝ} (H : PathMH S π q move rev lacc) :
    Reversible S π (mhKernel q move (fun x ω => acceptProb 0 (lacc x ω))) := by
  intro x hx y hy
  by_cases hxy : x = y
  · rw [hxy]
  · have := H.flow le_rfl hx hy hxy
    rw [zero_mul] at this
    linarith [abs_eq_zero.1 (le_antisymm this (abs_nonneg _))]

/-- With the code's acceptance test one step moves the target by at most `2·tiny` of its mass. -/
theorem PathMH.nearlyInvariant [Fintype Ω] [DecidableEq X] {S : Finset X} {π : X → ℝ}
    {q : X → Ω → ℝ} {move : X → Ω → X} {rev : X → Ω → Ω} {lacc : X → Ω → ℝ}
    (H : PathMH S π q move rev lacc) {tiny : ℝ} (h0 : 0 ≤ tiny) :
    NearlyInvariant S π (mhKernel q move (fun x ω => acceptProb tiny (lacc x ω))) (2 * tiny) := by
  set K := mhKernel q move (fun x ω => acceptProb tiny (lacc x ω)) with hK
  have hs : Stochastic S K := stochastic_mhKernel H.prob H.closed
    (fun _ _ => acceptProb_nonneg _ _) (fun _ _ => acceptProb_le_one _ _)
  have hlawle : ∀ x ∈ S, ∑ y ∈ S, law (q x) (move x) y ≤ 1 := by
    intro x hx
    unfold law
    rw [Finset.sum_comm, ← (H.prob x hx).2]
    refine Finset.sum_le_sum fun ω _ => ?_
    rw [Finset.sum_ite_eq]
    split_ifs
    exacts [le_rfl, (H.prob x hx).1 ω]
  have hlaw0 : ∀ x ∈ S, ∀ y, 0 ≤ law (q x) (move x) y := fun x hx y => law_nonneg (H.prob x hx).1 _ _
  have hpair : ∀ x ∈ S, ∀ y ∈ S, |π x * K x y - π y * K y x| ≤
      tiny * (π x * law (q x) (move x) y + π y * law (q y) (move y) x) := by
    intro x hx y hy
    by_cases hxy : x = y
    · subst hxy
      rw [sub_self, abs_zero]
      have := mul_nonneg (H.pi_pos x hx).le (hlaw0 x hx x)
      nlinarith
    · exact H.flow h0 hx hy hxy
  unfold NearlyInvariant
  calc ∑ y ∈ S, |∑ x ∈ S, π x * K x y - π y|
      = ∑ y ∈ S, |∑ x ∈ S, (π x * K x y - π y * K y x)| := by
        refine Finset.sum_congr rfl fun y hy => ?_
        rw [Finset.sum_sub_distrib, ← Finset.mul_sum, hs.2.1 y hy, mul_one]
    _ ≤ ∑ y ∈ S, ∑ x ∈ S, |π x * K x y - π y * K y x| :=
        Finset.sum_le_sum fun y _ => Finset.abs_sum_le_sum_abs _ _
    _ ≤ ∑ y ∈ S, ∑ x ∈ S, tiny * (π x * law (q x) (move x) y + π y * law (q y) (move y) x) :=
        Finset.sum_le_sum fun y hy => Finset.sum_le_sum fun x hx => hpair x hx y hy
    _ = tiny * (∑ x ∈ S, π x * ∑ y ∈ S, law (q x) (move x) y) +
          tiny * (∑ y ∈ S, π y * ∑ x ∈ S, law (q y) (move y) x) := by
        simp only [mul_add, Finset.sum_add_distrib, Finset.mul_sum]
        congr 1
        rw [Finset.sum_comm]
    _ ≤ tiny * (∑ x ∈ S, π x) + tiny * (∑ x ∈ S, π x) := by
        have : ∑ x ∈ S, π x * ∑ y ∈ S, law (q x) (move x) y ≤ ∑ x ∈ S, π x :=
          Finset.sum_le_sum fun x hx => by
            have := mul_le_mul_of_nonneg_left (hlawle x hx) (H.pi_pos x hx).le
            linarith
        nlinarith
    _ = 2 * tiny * ∑ x ∈ S, π x := by ring

/-- `stepf x ω u` is a Metropolis–Hastings step: it goes to `move x ω` when the code's acceptance test
with log ratio `lacc x ω` succeeds on the noise `u`, and stays otherwise. -/
structure IsMHStep (S : Finset X) (tiny : ℝ) (move : X → Ω → X) (lacc : X → Ω → ℝ)
    (stepf : X → Ω → ℝ → X) : Prop where
  accept : ∀ x ∈ S, ∀ ω u, bernoulliLogp tiny u (lacc x ω) → stepf x ω u = move x ω
  reject : ∀ x ∈ S, ∀ ω u, ¬ bernoulliLogp tiny u (lacc x ω) → stepf x ω u = x

theorem Stochastic.congr {S : Finset X} {K L : X → X → ℝ} (h : ∀ x ∈ S, ∀ y, K x y = L x y)
    (hL : Stochastic S L) : Stochastic S K := by
  refine ⟨fun x hx y => ?_, fun x hx => ?_, fun x hx y hy => ?_⟩
  · rw [h x hx]; exact hL.1 x hx y
  · rw [Finset.sum_congr rfl fun y _ => h x hx y]; exact hL.2.1 x hx
  · rw [h x hx]; exact hL.2.2 x hx y hy

theorem Reversible.congr {S : Finset X} {π : X → ℝ} {K L : X → X → ℝ}
    (h : ∀ x ∈ S, ∀ y, K x y = L x y) (hL : Reversible S π L) : Reversible S π K := by
  intro x hx y hy
  rw [h x hx, h y hy]; exact hL x hx y hy

theorem NearlyInvariant.congr {S : Finset X} {π : X → ℝ} {K L : X → X → ℝ} {ε : ℝ}
    (h : ∀ x ∈ S, ∀ y, K x y = L x y) (hL : NearlyInvariant S π L ε) : NearlyInvariant S π K ε := by
  unfold NearlyInvariant at *
  refine le_trans (le_of_eq ?_) hL
  refine Finset.sum_congr rfl fun y _ => ?_
  rw [Finset.sum_congr rfl fun x hx => by rw [h x hx y]]

theorem IsMHStep.lawU_eq [Fintype Ω] [DecidableEq X] {S : Finset X} {tiny : ℝ} (ht : 0 ≤ tiny)
    {move : X → Ω → X} {lacc : X → Ω → ℝ} {stepf : X → Ω → ℝ → X}
    (h : IsMHStep S tiny move lacc stepf) (q : X → Ω → ℝ) :
    ∀ x ∈ S, ∀ y, lawU (q x) (stepf x) y =
      mhKernel q move (fun x ω => acceptProb tiny (lacc x ω)) x y := by
  intro x hx y
  rw [lawU_mh ht _ (lacc x) (move x) x y _ (h.accept x hx) (h.reject x hx)]
  rfl

section package

variable [Fintype Ω] {S : Finset X} {π : X → ℝ} {q : X → Ω → ℝ}
    {move : X → Ω → X} {rev : X → Ω → Ω} {lacc : X → Ω → ℝ}

theorem PathMH.stochastic_step (H : PathMH S π q move rev lacc) {tiny : ℝ} (ht : 0 ≤ tiny)
    {stepf : X → Ω → ℝ → X} (h : IsMHStep S tiny move lacc stepf) :
    Stochastic S (fun x y => lawU (q x) (stepf x) y) := by
  classical
  exact Stochastic.congr (h.lawU_eq ht q) (stochastic_mhKernel H.prob H.closed
    (fun _ _ => acceptProb_nonneg _ _) (fun _ _ => acceptProb_le_one _ _))

theorem PathMH.reversible_step (H : PathMH S π q move rev lacc)
    {stepf : X → Ω → ℝ → X} (h : IsMHStep S 0 move lacc stepf) :
    Reversible S π (fun x y => lawU (q x) (stepf x) y) := by
  classical
  exact Reversible.congr (h.lawU_eq le_rfl q) H.reversible

theorem PathMH.nearlyInvariant_step (H : PathMH S π q move rev lacc) {tiny : ℝ} (ht : 0 ≤ tiny)
    {stepf : X → Ω → ℝ → X} (h : IsMHStep S tiny move lacc stepf) :
    NearlyInvariant S π (fun x y => lawU (q x) (stepf x) y) (2 * tiny) := by
  classical
  exact NearlyInvariant.congr (h.lawU_eq ht q) (H.nearlyInvariant ht)

end package

end Discs.Spec

namespace Discs

theorem mhTiny_nonneg : 0 ≤ mhTiny := by unfold mhTiny; norm_num

theorem mhStep_accept {B : ℕ} {X : Type*} {tiny : ℝ} {u l : Fin B → ℝ} {x y : Fin B → X} {b : Fin B}
    (h : bernoulliLogp tiny (u b) (l b)) : (mhStep tiny u l x y).1 b = y b := by
  simp [mhStep, h]

theorem mhStep_reject {B : ℕ} {X : Type*} {tiny : ℝ} {u l : Fin B → ℝ} {x y : Fin B → X} {b : Fin B}
    (h : ¬ bernoulliLogp tiny (u b) (l b)) : (mhStep tiny u l x y).1 b = x b := by
  simp [mhStep, h]

end Discs
