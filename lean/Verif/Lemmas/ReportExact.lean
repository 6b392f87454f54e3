import Verif.Lemmas.ReportHold
import Verif.Props.Report

/-!
# Lemmas on one flip per step with exact scores
-/

namespace Discs

open Finset Spec Filter

variable {D B : ℕ}

/-- Flip one site. -/
def Spec.oneFlip (x : Fin D → ℤ) (i : Fin D) : Fin D → ℤ := Function.update x i (1 - x i)

/-- The gradient gives the exact change of the score for every flip (as for Max-Cut, `maxcut_exact`). -/
def Spec.ExactGrad (E : (Fin D → ℤ) → ℝ) (g : (Fin D → ℤ) → Fin D → ℝ) : Prop :=
  ∀ x ∈ validStates 2 D, ∀ i, (1 - 2 * (x i : ℝ)) * g x i = E (oneFlip x i) - E x

theorem oneFlip_valid {x : Fin D → ℤ} (hx : x ∈ validStates 2 D) (i : Fin D) : oneFlip x i ∈ validStates 2 D := by
  rw [mem_validStates_two] at hx ⊢
  intro j
  unfold oneFlip
  by_cases h : j = i
  · subst h; rw [Function.update_self]; have := hx j; omega
  · rw [Function.update_of_ne h]; exact hx j

theorem oneFlip_oneFlip (x : Fin D → ℤ) (i : Fin D) : oneFlip (oneFlip x i) i = x := by
  unfold oneFlip
  simp

/-! ### The balancing functions -/

section Weight

variable {name : String} {h : ℝ → ℝ}

theorem weight_balanced (hh : ∀ v, applyWeightLog name v = .ok (h v)) (a : ℝ) : h a - h (-a) = a :=
  applyWeightLog_balanced (hh a) (hh (-a))

theorem weight_mono (hh : ∀ v, applyWeightLog name v = .ok (h v)) {a b : ℝ} (hab : a ≤ b) : h a ≤ h b := by
  have ha := hh a
  have hb := hh b
  unfold applyWeightLog at ha hb
  split_ifs at ha hb <;> simp only [Except.ok.injEq] at ha hb <;> rw [← ha, ← hb]
  · linarith
  · unfold logSigmoid
    refine neg_le_neg (Real.log_le_log (by positivity) ?_)
    have := Real.exp_le_exp.2 (neg_le_neg hab)
    linarith
  · unfold clipMin; exact max_le_max hab le_rfl
  · unfold clipMax; exact min_le_min hab le_rfl

/-- Every balancing function is strictly monotone to the left or to the right of zero. -/
theorem weight_strict (hh : ∀ v, applyWeightLog name v = .ok (h v)) :
    (∀ a > 0, h 0 < h a) ∨ ∀ a > 0, h (-a) < h 0 := by
  by_cases hmax : name = "MAX"
  · left
    intro a ha
    have h1 := hh a
    have h0 := hh 0
    subst hmax
    simp [applyWeightLog, clipMin] at h1 h0
    rw [← h1, ← h0]
    exact lt_max_of_lt_left ha
  · right
    intro a ha
    have h1 := hh (-a)
    have h0 := hh 0
    unfold applyWeightLog at h1 h0
    rw [if_neg hmax] at h1 h0
    split_ifs at h1 h0 <;> simp only [Except.ok.injEq] at h1 h0 <;> rw [← h1, ← h0]
    · linarith
    · unfold logSigmoid
      refine neg_lt_neg (Real.log_lt_log (by positivity) ?_)
      have := Real.exp_lt_exp.2 (show -(0 : ℝ) < - -a by linarith)
      linarith
    · unfold clipMax
      rw [min_self]
      exact min_lt_of_left_lt (by linarith)

end Weight

/-! ### The normaliser -/

/-- The normaliser of the proposal at inverse temperature `u`. -/
noncomputable def flipMass (h : ℝ → ℝ) (E : (Fin D → ℤ) → ℝ) (u : ℝ) (x : Fin D → ℤ) : ℝ :=
  ∑ i, Real.exp (h ((E (oneFlip x i) - E x) * u))

theorem flipMass_pos (hD : 0 < D) (h : ℝ → ℝ) (E : (Fin D → ℤ) → ℝ) (u : ℝ) (x : Fin D → ℤ) :
    0 < flipMass h E u x := by
  have : Nonempty (Fin D) := ⟨⟨0, hD⟩⟩
  exact Finset.sum_pos (fun _ _ => Real.exp_pos _) univ_nonempty

theorem gwgDist_exact {h : ℝ → ℝ} {E : (Fin D → ℤ) → ℝ} {g : (Fin D → ℤ) → Fin D → ℝ} (hg : ExactGrad E g) {T : ℝ}
    {x : Fin D → ℤ} (hx : x ∈ validStates 2 D) (i : Fin D) :
    gwgDist h none x (fun j => g x j / (1 * T)) i =
      h ((E (oneFlip x i) - E x) * (1 / T)) - Real.log (flipMass h E (1 / T) x) := by
  have e : ∀ j, (1 - 2 * (x j : ℝ)) * (g x j / (1 * T)) = (E (oneFlip x j) - E x) * (1 / T) := by
    intro j
    rw [← hg x hx j, one_mul]; ring
  unfold gwgDist logSoftmax logsumexp flipMass applyMask
  simp only [e]

/-- With exact scores the acceptance ratio of one flip is the ratio of the normalisers. -/
theorem gwg_one_logAcc {name : String} {h : ℝ → ℝ} (hh : ∀ v, applyWeightLog name v = .ok (h v))
    {obj pen : (Fin D → ℤ) → ℝ} {g : (Fin D → ℤ) → Fin D → ℝ} (hg : ExactGrad (fun x => obj x - pen x) g)
    (temp : ℕ → ℝ) (t : ℕ) {x : Fin D → ℤ} (hx : x ∈ validStates 2 D) (i : Fin D) :
    gwgLogAcc (k := 1) h (annealEnergy obj pen temp t) (annealGrad g temp t) none x (fun _ => i) =
      Real.log (flipMass h (fun x => obj x - pen x) (1 / temp (t + 1)) x) -
        Real.log (flipMass h (fun x => obj x - pen x) (1 / temp (t + 1)) (oneFlip x i)) := by
  have hb := weight_balanced hh (((obj (oneFlip x i) - pen (oneFlip x i)) - (obj x - pen x)) * (1 / temp (t + 1)))
  unfold gwgLogAcc gwgLl
  rw [gwgPropose_one]
  change annealEnergy obj pen temp t (oneFlip x i) + ∑ _j : Fin 1, gwgDist h none (oneFlip x i)
      (fun j => g (oneFlip x i) j / (1 * temp (t + 1))) i - annealEnergy obj pen temp t x -
      ∑ _j : Fin 1, gwgDist h none x (fun j => g x j / (1 * temp (t + 1))) i = _
  rw [gwgDist_exact hg hx, gwgDist_exact hg (oneFlip_valid hx i), oneFlip_oneFlip]
  simp only [Finset.univ_unique, Finset.sum_const, Finset.card_singleton, one_smul]
  unfold annealEnergy combForward
  rw [show (obj x - pen x - (obj (oneFlip x i) - pen (oneFlip x i))) * (1 / temp (t + 1)) =
    -((obj (oneFlip x i) - pen (oneFlip x i) - (obj x - pen x)) * (1 / temp (t + 1))) by ring]
  rw [one_mul]
  have : (obj (oneFlip x i) - pen (oneFlip x i)) / temp (t + 1) - (obj x - pen x) / temp (t + 1) =
    ((obj (oneFlip x i) - pen (oneFlip x i)) - (obj x - pen x)) * (1 / temp (t + 1)) := by ring
  linarith

/-- A sample is kept with at least the probability of proposing a flip that increases the normaliser, times that of
rejecting it. -/
theorem gwg_one_hold {name : String} {h : ℝ → ℝ} (hh : ∀ v, applyWeightLog name v = .ok (h v))
    {obj pen : (Fin D → ℤ) → ℝ} {g : (Fin D → ℤ) → Fin D → ℝ} (hg : ExactGrad (fun x => obj x - pen x) g)
    {temp : ℕ → ℝ} (s : ℕ → LBState) {tiny G Tm κ : ℝ} (ht : 0 ≤ tiny) (hG : ∀ x ∈ validStates 2 D, ∀ j, |g x j| ≤ G)
    (hTm : 0 < Tm) {t : ℕ} (hlow : Tm ≤ temp (t + 1)) {x : Fin D → ℤ} (hx : x ∈ validStates 2 D) {i : Fin D}
    (hκ0 : 0 ≤ κ) (hκ : κ ≤ Real.log (flipMass h (fun x => obj x - pen x) (1 / temp (t + 1)) (oneFlip x i)) -
      Real.log (flipMass h (fun x => obj x - pen x) (1 / temp (t + 1)) x)) :
    Real.exp (-(2 * G / Tm)) / D * (1 - Real.exp (-κ)) ≤ gwgAnneal 1 tiny h obj pen g temp s t x x := by
  have e := (gwg_isMH 1 tiny h (annealEnergy obj pen temp t) (annealGrad g temp t) none (s t)).lawU_eq ht
    (gwgDrawLaw h (annealGrad g temp t) none) x hx x
  refine le_trans ?_ e.ge
  unfold mhKernel
  have hq : ∀ idx : Fin 1 → Fin D, 0 ≤ gwgDrawLaw h (annealGrad g temp t) none x idx := fun idx => by
    have : Nonempty (Fin D) := ⟨i⟩
    exact Finset.prod_nonneg fun _ _ => (softmax_pos _ _).le
  refine le_trans ?_ (Finset.single_le_sum (f := fun idx : Fin 1 → Fin D =>
    gwgDrawLaw h (annealGrad g temp t) none x idx * ((if gwgPropose x idx = x then acceptProb tiny
      (gwgLogAcc h (annealEnergy obj pen temp t) (annealGrad g temp t) none x idx) else 0) +
      (if x = x then 1 - acceptProb tiny
        (gwgLogAcc h (annealEnergy obj pen temp t) (annealGrad g temp t) none x idx) else 0)))
    (fun idx _ => mul_nonneg (hq idx) (add_nonneg (by
      split_ifs
      · exact acceptProb_nonneg _ _
      · rfl) (by
      rw [if_pos rfl]
      linarith [acceptProb_le_one tiny (gwgLogAcc h (annealEnergy obj pen temp t) (annealGrad g temp t) none x idx)])))
    (mem_univ fun _ => i))
  have h1 : Real.exp (-(2 * G / Tm)) / D ≤ gwgDrawLaw (k := 1) h (annealGrad g temp t) none x fun _ => i := by
    unfold gwgDrawLaw
    simpa using gwg_index_ge hh hG hTm hlow hx i
  have h2 : acceptProb tiny (gwgLogAcc (k := 1) h (annealEnergy obj pen temp t) (annealGrad g temp t) none x fun _ => i) ≤
      Real.exp (-κ) := by
    rw [gwg_one_logAcc hh hg temp t hx i]
    unfold acceptProb
    refine max_le (Real.exp_pos _).le ((min_le_right _ _).trans ?_)
    have : Real.exp (Real.log (flipMass h (fun x => obj x - pen x) (1 / temp (t + 1)) x) -
        Real.log (flipMass h (fun x => obj x - pen x) (1 / temp (t + 1)) (oneFlip x i))) ≤ Real.exp (-κ) :=
      Real.exp_le_exp.2 (by linarith)
    linarith
  have h3 : 0 ≤ 1 - Real.exp (-κ) := by
    have := Real.exp_le_one_iff.2 (neg_nonpos.2 hκ0)
    linarith
  have h4 : (0 : ℝ) ≤ if gwgPropose x (fun _ : Fin 1 => i) = x then acceptProb tiny
      (gwgLogAcc (k := 1) h (annealEnergy obj pen temp t) (annealGrad g temp t) none x fun _ => i) else 0 := by
    split_ifs
    · exact acceptProb_nonneg _ _
    · rfl
  rw [if_pos rfl]
  refine mul_le_mul h1 (by linarith) h3 (hq _)

theorem flipMass_le_add {name : String} {h : ℝ → ℝ} (hh : ∀ v, applyWeightLog name v = .ok (h v))
    {E : (Fin D → ℤ) → ℝ} {R : ℝ} {x : Fin D → ℤ} (hR : ∀ i, |E (oneFlip x i) - E x| ≤ R) (hD : 0 < D) (u v : ℝ) :
    Real.log (flipMass h E u x) ≤ Real.log (flipMass h E v x) + R * |u - v| := by
  have hpos := flipMass_pos hD h E v x
  rw [← Real.log_exp (R * |u - v|), ← Real.log_mul hpos.ne' (Real.exp_pos _).ne']
  refine Real.log_le_log (flipMass_pos hD h E u x) ?_
  unfold flipMass
  rw [Finset.sum_mul]
  refine Finset.sum_le_sum fun i _ => ?_
  rw [← Real.exp_add]
  refine Real.exp_le_exp.2 ?_
  have h1 := applyWeightLog_lip hh ((E (oneFlip x i) - E x) * u) ((E (oneFlip x i) - E x) * v)
  rw [← mul_sub, abs_mul] at h1
  have := mul_le_mul_of_nonneg_right (hR i) (abs_nonneg (u - v))
  linarith

/-- Flips of a single site. -/
def Spec.siteFlip (a b : Fin D → ℤ) : Prop := ∃ i, b i ≠ a i ∧ ∀ j, j ≠ i → b j = a j

theorem siteFlip_eq {a b : Fin D → ℤ} (ha : a ∈ validStates 2 D) (hb : b ∈ validStates 2 D) (h : siteFlip a b) :
    ∃ i, b = oneFlip a i := by
  obtain ⟨i, hi, hj⟩ := h
  refine ⟨i, funext fun j => ?_⟩
  unfold oneFlip
  by_cases e : j = i
  · subst e
    rw [Function.update_self]
    have := mem_validStates_two.1 ha j
    have := mem_validStates_two.1 hb j
    omega
  · rw [Function.update_of_ne e, hj j e]

theorem siteFlip_walk {x y : Fin D → ℤ} (hx : x ∈ validStates 2 D) (hy : y ∈ validStates 2 D) :
    ∃ n ≤ D, Walk (validStates 2 D) siteFlip n x y :=
  ⟨_, (Finset.card_filter_le _ _).trans (by simp), Walk.sites mix_valid (fun _ _ _ _ h => h) x hx y hy⟩

/-- Unless all samples are equally good, some best sample has a neighbour that is worse. -/
theorem exists_edge {E : (Fin D → ℤ) → ℝ} {z z' : Fin D → ℤ} (hz : z ∈ validStates 2 D) (hz' : z' ∈ validStates 2 D)
    (hne : E z ≠ E z') : ∃ x ∈ validStates 2 D, (∀ y ∈ validStates 2 D, E y ≤ E x) ∧ ∃ i, E (oneFlip x i) < E x := by
  by_contra hcon
  push Not at hcon
  obtain ⟨m, hm, hmax⟩ := Finset.exists_max_image (validStates 2 D) E ⟨z, hz⟩
  have key : ∀ y ∈ validStates 2 D, E y = E m := by
    intro y hy
    obtain ⟨n, -, w⟩ := siteFlip_walk hm hy
    refine Walk.keeps (P := fun y => E y = E m) ?_ hy w rfl
    intro a ha ea b hb hab
    obtain ⟨i, rfl⟩ := siteFlip_eq ha hb hab
    have h1 := hcon a ha (fun y hy => ea ▸ hmax y hy) i
    have h2 := hmax _ hb
    linarith
  exact hne ((key z hz).trans (key z' hz').symm)

/-- Unless all samples are equally good, there is a flip that increases the normaliser, by an amount that does not depend
on the temperature as long as that is bounded. -/
theorem exists_increase (hD : 0 < D) {name : String} {h : ℝ → ℝ} (hh : ∀ v, applyWeightLog name v = .ok (h v))
    {E : (Fin D → ℤ) → ℝ} {z z' : Fin D → ℤ} (hz : z ∈ validStates 2 D) (hz' : z' ∈ validStates 2 D)
    (hne : E z ≠ E z') {u₀ : ℝ} (hu₀ : 0 < u₀) : ∃ c > 0, ∀ u ≥ u₀, ∃ x ∈ validStates 2 D, ∃ i,
      c < Real.log (flipMass h E u (oneFlip x i)) - Real.log (flipMass h E u x) := by
  obtain ⟨p, hp, hpm, i, hi⟩ := exists_edge hz hz' hne
  obtain ⟨q, hq, hqm, j, hj⟩ := exists_edge (E := fun x => -E x) hz hz' (fun e => hne (neg_injective e))
  have hqm' : ∀ y ∈ validStates 2 D, E q ≤ E y := fun y hy => neg_le_neg_iff.1 (hqm y hy)
  have hj' : E q < E (oneFlip q j) := neg_lt_neg_iff.1 hj
  -- the normaliser at a best sample falls, at a worst sample grows
  have hpu : ∀ u ≥ u₀, flipMass h E u p ≤ flipMass h E u₀ p := fun u hu =>
    Finset.sum_le_sum fun l _ => Real.exp_le_exp.2 (weight_mono hh
      (mul_le_mul_of_nonpos_left hu (sub_nonpos.2 (hpm _ (oneFlip_valid hp l)))))
  have hqu : ∀ u ≥ u₀, flipMass h E u₀ q ≤ flipMass h E u q := fun u hu =>
    Finset.sum_le_sum fun l _ => Real.exp_le_exp.2 (weight_mono hh
      (mul_le_mul_of_nonneg_left hu (sub_nonneg.2 (hqm' _ (oneFlip_valid hq l)))))
  have hp0 : ∀ l, h ((E (oneFlip p l) - E p) * u₀) ≤ h 0 := fun l => weight_mono hh
    (mul_nonpos_of_nonpos_of_nonneg (sub_nonpos.2 (hpm _ (oneFlip_valid hp l))) hu₀.le)
  have hq0 : ∀ l, h 0 ≤ h ((E (oneFlip q l) - E q) * u₀) := fun l => weight_mono hh
    (mul_nonneg (sub_nonneg.2 (hqm' _ (oneFlip_valid hq l))) hu₀.le)
  have hlt : flipMass h E u₀ p < flipMass h E u₀ q := by
    have hle : ∀ l ∈ (univ : Finset (Fin D)), Real.exp (h ((E (oneFlip p l) - E p) * u₀)) ≤ Real.exp (h 0) :=
      fun l _ => Real.exp_le_exp.2 (hp0 l)
    have hle' : ∀ l ∈ (univ : Finset (Fin D)), Real.exp (h 0) ≤ Real.exp (h ((E (oneFlip q l) - E q) * u₀)) :=
      fun l _ => Real.exp_le_exp.2 (hq0 l)
    rcases weight_strict hh with hs | hs
    · exact (Finset.sum_le_sum hle).trans_lt (Finset.sum_lt_sum hle' ⟨j, mem_univ j, Real.exp_lt_exp.2
        (hs _ (mul_pos (sub_pos.2 hj') hu₀))⟩)
    · refine (Finset.sum_lt_sum hle ⟨i, mem_univ i, Real.exp_lt_exp.2 ?_⟩).trans_le (Finset.sum_le_sum hle')
      have := hs ((E p - E (oneFlip p i)) * u₀) (mul_pos (sub_pos.2 hi) hu₀)
      rwa [← neg_mul, neg_sub] at this
  have hlog : 0 < Real.log (flipMass h E u₀ q) - Real.log (flipMass h E u₀ p) :=
    sub_pos.2 (Real.log_lt_log (flipMass_pos hD h E u₀ p) hlt)
  refine ⟨(Real.log (flipMass h E u₀ q) - Real.log (flipMass h E u₀ p)) / (D + 1), by positivity, fun u hu => ?_⟩
  obtain ⟨n, hn, w⟩ := siteFlip_walk hp hq
  have h1 := Real.log_le_log (flipMass_pos hD h E u p) (hpu u hu)
  have h2 := Real.log_le_log (flipMass_pos hD h E u₀ q) (hqu u hu)
  obtain ⟨a, ha, b, hb, hab, hgrow⟩ := Walk.exists_growth (φ := fun x => Real.log (flipMass h E u x))
    (c := (Real.log (flipMass h E u₀ q) - Real.log (flipMass h E u₀ p)) / (D + 1)) hq w (by
      have hn' : (n : ℝ) < D + 1 := by
        have : (n : ℝ) ≤ D := by exact_mod_cast hn
        linarith
      have : (n : ℝ) * ((Real.log (flipMass h E u₀ q) - Real.log (flipMass h E u₀ p)) / (D + 1)) <
          Real.log (flipMass h E u₀ q) - Real.log (flipMass h E u₀ p) := by
        rw [mul_div_assoc', div_lt_iff₀ (by positivity), mul_comm]
        exact mul_lt_mul_of_pos_left hn' hlog
      linarith)
  obtain ⟨l, rfl⟩ := siteFlip_eq ha hb hab
  exact ⟨a, ha, l, hgrow⟩

end Discs
