import Verif.Props.DLMC
import Mathlib.Analysis.Complex.ExponentialBounds

/-!
# Properties C28 and C29: step-size adaptation of DMALA and DLMC

Both are false of the code; the refutations are run on the actual step functions from the initial
state, with the default adaptation settings, on a two-site model with its exact gradient.
-/

namespace Discs

open Finset Spec

variable {D : ℕ}

/-! ## What one update does -/

/-- The adaptive settings the properties are about. -/
def DCfg.adapts (c : DCfg) : Prop := c.adaptive = true ∧ c.coOpt = false

theorem dSelectState_adapts {c : DCfg} (hc : c.adapts) (s : DState) (acc : Option ℝ) (loc : DStats) :
    dSelectState c s acc loc =
      { steps := s.steps + 1, numLlCalls := s.numLlCalls + 4,
        logTau := dNewLogTau c.target s.logTau acc (dNewLogZ c (s.steps + 1) s.logZ loc.logZ),
        logZ := dNewLogZ c (s.steps + 1) s.logZ loc.logZ } := by
  unfold dSelectState dUpdate
  simp [hc.1, hc.2]

/-- C28 (exact condition for NaN): the step size becomes NaN exactly when it was NaN, the acceptance is
NaN, or the updated expected number of flips is negative. -/
theorem dNewLogTau_none_iff (target : ℝ) (t a : Option ℝ) (z : ℝ) :
    dNewLogTau target t a z = none ↔
      t = none ∨ a = none ∨ ∃ t' a', t = some t' ∧ a = some a' ∧ Real.exp (t' + z) + 3 * (a' - target) < 0 := by
  cases t with
  | none => simp [dNewLogTau]
  | some t =>
    cases a with
    | none => simp [dNewLogTau]
    | some a =>
      simp only [dNewLogTau, reduceCtorEq, false_or, Option.some.injEq]
      constructor
      · intro h
        refine ⟨t, a, rfl, rfl, ?_⟩
        by_contra hn
        rw [if_neg hn] at h
        split_ifs at h
      · rintro ⟨t', a', rfl, rfl, h⟩
        rw [if_pos h]

/-- Closed form of the update in terms of the expected number of flips. -/
theorem dNewLogTau_some {target t a z : ℝ} (hn : 0 ≤ Real.exp (t + z) + 3 * (a - target)) :
    ∃ t', dNewLogTau target (some t) (some a) z = some t' ∧ -z ≤ t' ∧
      Real.exp (t' + z) = max 1 (Real.exp (t + z) + 3 * (a - target)) := by
  simp only [dNewLogTau]
  rw [if_neg (not_lt.2 hn)]
  by_cases h0 : Real.exp (t + z) + 3 * (a - target) = 0
  · rw [if_pos h0, h0]
    exact ⟨-z, rfl, le_rfl, by simp⟩
  · rw [if_neg h0]
    have hpos := lt_of_le_of_ne hn (Ne.symm h0)
    refine ⟨_, rfl, le_max_right _ _, ?_⟩
    unfold clipMin
    rw [← max_add_add_right, Real.exp_monotone.map_max]
    simp only [sub_add_cancel, neg_add_cancel, Real.exp_zero, Real.exp_log hpos]
    rw [max_comm]

/-- C28 (lower bound): whenever the step size after an adaptive update is a number it is at least
`-log_z`. -/
theorem dSelectState_lower {c : DCfg} (hc : c.adapts) (s : DState) (acc : Option ℝ) (loc : DStats)
    {t : ℝ} (ht : (dSelectState c s acc loc).logTau = some t) :
    -(dSelectState c s acc loc).logZ ≤ t := by
  rw [dSelectState_adapts hc] at ht ⊢
  simp only at ht ⊢
  set z := dNewLogZ c (s.steps + 1) s.logZ loc.logZ
  have hne : dNewLogTau c.target s.logTau acc z ≠ none := by rw [ht]; simp
  rw [Ne, dNewLogTau_none_iff] at hne
  push Not at hne
  obtain ⟨h1, h2, h3⟩ := hne
  obtain ⟨t0, h1⟩ := Option.ne_none_iff_exists'.1 h1
  obtain ⟨a0, h2⟩ := Option.ne_none_iff_exists'.1 h2
  obtain ⟨t', e, hle, _⟩ := dNewLogTau_some (h3 t0 a0 h1 h2)
  rw [h1, h2, e] at ht
  rw [← Option.some.inj ht]; exact hle

/-- C28 (NaN is absorbing). -/
theorem dSelectState_nan {c : DCfg} (hc : c.adapts) (s : DState) (acc : Option ℝ) (loc : DStats)
    (h : s.logTau = none) : (dSelectState c s acc loc).logTau = none := by
  rw [dSelectState_adapts hc]
  exact (dNewLogTau_none_iff _ _ _ _).2 (Or.inl h)

/-- C28 (consequence): with a NaN step size no chain ever moves again and the step size stays NaN. -/
theorem dmalaBinary_frozen {B : ℕ} {c : DCfg} (hc : c.adapts) (tiny eps : ℝ) (h : ℝ → ℝ)
    (f : (Fin D → ℤ) → ℝ) (g : (Fin D → ℤ) → Fin D → ℝ) (x : Fin B → Fin D → ℤ)
    (flip : Fin B → Fin D → Bool) (u : Fin B → ℝ) (s : DState) (hs : s.steps ≠ 0)
    (hn : s.logTau = none) :
    (dmalaBinaryStep c tiny eps h f g x flip u s).1 = x ∧
    (dmalaBinaryStep c tiny eps h f g x flip u s).2.1.logTau = none := by
  have e : ∀ loc, dmalaLogTau c s loc = none := by
    intro loc; simp [dmalaLogTau, hc.1, hc.2, hs, hn]
  unfold dmalaBinaryStep
  simp only [e]
  exact ⟨trivial, dSelectState_nan hc _ _ _ hn⟩

/-- Average acceptance of a batch is in `(0, 1]`. -/
theorem dAcc_mem {B : ℕ} (hB : 0 < B) (l : Fin B → ℝ) : 0 < dAcc l ∧ dAcc l ≤ 1 := by
  have : Nonempty (Fin B) := ⟨⟨0, hB⟩⟩
  have hB' : (0 : ℝ) < B := by exact_mod_cast hB
  unfold dAcc meanB
  constructor
  · exact div_pos (Finset.sum_pos (fun _ _ => Real.exp_pos _) Finset.univ_nonempty) hB'
  · rw [div_le_one hB']
    calc ∑ b, Real.exp (clipMax (l b) 0) ≤ ∑ _b : Fin B, (1 : ℝ) :=
          Finset.sum_le_sum fun b _ => by
            rw [← Real.exp_zero]; exact Real.exp_le_exp.2 (min_le_right _ _)
      _ = B := by simp

/-- The sampler state of a run: acceptance and local statistics of each step are arbitrary. -/
noncomputable def dRun (c : DCfg) (acc : ℕ → ℝ) (loc : ℕ → DStats) (s : DState) : ℕ → DState
  | 0 => s
  | k + 1 => dSelectState c (dRun c acc loc s k) (some (acc k)) (loc k)

/-- C28, the part that holds: once `log_z` is frozen (no periodic reset, schedule over) and if the target
acceptance rate is at most 1/3, the step size stays a finite number not below `-log_z` for ever.
Missing for the full C28: the default target 0.574, and steps at which `log_z` changes. -/
theorem dRun_finite_partial {c : DCfg} (hc : c.adapts) (htarget : c.target ≤ 1 / 3) (hreset : c.resetZ ≤ 0)
    {acc : ℕ → ℝ} (hacc : ∀ k, 0 ≤ acc k) (loc : ℕ → DStats) {s : DState} (hs : 1 ≤ s.steps)
    (hsched : c.scheduleStep ≤ s.steps + 1) {t : ℝ} (ht : s.logTau = some t) (hlow : -s.logZ ≤ t)
    (k : ℕ) :
    (dRun c acc loc s k).logZ = s.logZ ∧ ∃ t', (dRun c acc loc s k).logTau = some t' ∧ -s.logZ ≤ t' := by
  suffices h : (dRun c acc loc s k).steps = s.steps + k ∧ (dRun c acc loc s k).logZ = s.logZ ∧
      ∃ t', (dRun c acc loc s k).logTau = some t' ∧ -s.logZ ≤ t' from h.2
  induction k with
  | zero => exact ⟨rfl, rfl, t, ht, hlow⟩
  | succ k ih =>
    obtain ⟨h1, h2, t', h3, h4⟩ := ih
    show (dSelectState c (dRun c acc loc s k) (some (acc k)) (loc k)).steps = _ ∧ _
    rw [dRun, dSelectState_adapts hc]
    simp only [h1, h2, h3]
    have hz : dNewLogZ c (s.steps + k + 1) s.logZ (loc k).logZ = s.logZ := by
      unfold dNewLogZ
      have e1 : ¬ c.resetZ > 0 := not_lt.2 hreset
      have e2 : ¬ (s.steps + k + 1 = 1) := by omega
      have e3 : ¬ (((s.steps + k + 1 : ℕ) : ℤ) < c.scheduleStep) := by push_cast; omega
      simp only [e1, e2, e3, if_false]; ring
    rw [hz]
    refine ⟨by omega, rfl, ?_⟩
    have hn : 0 ≤ Real.exp (t' + s.logZ) + 3 * (acc k - c.target) := by
      have : 1 ≤ Real.exp (t' + s.logZ) := by rw [Real.one_le_exp_iff]; linarith
      have := hacc k
      linarith
    obtain ⟨t'', e, hle, _⟩ := dNewLogTau_some hn
    exact ⟨t'', e, hle⟩

/-- Instance for the partial C28: target 1/4, a chain past its schedule. -/
example : ∃ (c : DCfg) (s : DState) (t : ℝ), c.adapts ∧ c.target ≤ 1 / 3 ∧ c.resetZ ≤ 0 ∧ 1 ≤ s.steps ∧
    c.scheduleStep ≤ s.steps + 1 ∧ s.logTau = some t ∧ -s.logZ ≤ t :=
  ⟨⟨true, false, 0.3, 1 / 4, 100, -1, 3, "interpolate"⟩, ⟨100, 400, some (-1), 2⟩, -1, ⟨rfl, rfl⟩,
    by norm_num, by norm_num, by norm_num, by norm_num, rfl, by norm_num⟩

/-! ## The witness model -/

/-- `-x0 - x1 - 10 x0 x1` on two binary sites. -/
noncomputable def wF (x : Fin 2 → ℤ) : ℝ := -(x 0 : ℝ) - x 1 - 10 * x 0 * x 1

/-- Its gradient. -/
noncomputable def wG (x : Fin 2 → ℤ) : Fin 2 → ℝ := ![-1 - 10 * (x 1 : ℝ), -1 - 10 * (x 0 : ℝ)]

/-- The gradient really is the gradient of the multilinear extension. -/
theorem wG_grad (x : Fin 2 → ℤ) (j : Fin 2) (t : ℝ) :
    (let ext := fun y : Fin 2 → ℝ => -(y 0) - y 1 - 10 * y 0 * y 1
     ext (Function.update (fun i => (x i : ℝ)) j ((x j : ℝ) + t)) - ext (fun i => (x i : ℝ))) =
      wG x j * t := by
  fin_cases j <;> simp [wG, Function.update] <;> ring

/-- Default adaptive settings (`schedule_step 100`, `reset_z_est 20`, target `0.574`), square-root
weights. -/
noncomputable def wCfg : DCfg := ⟨true, false, 0.3, 0.574, 100, 20, 3, "interpolate"⟩

theorem wCfg_adapts : wCfg.adapts := ⟨rfl, rfl⟩

theorem wDelta0 (j : Fin 2) : deltaBinary wG ![0, 0] j = -1 := by
  unfold deltaBinary wG; fin_cases j <;> simp

/-- The mean rate at the origin is `2 e^{-1/2}`. -/
theorem exp_half_bound : 2 * Real.exp (-1 / 2) < 1.24 := by
  have h : (1.625 : ℝ) ≤ Real.exp (1 / 2) := by
    have := Real.quadratic_le_exp_of_nonneg (x := (1 / 2 : ℝ)) (by norm_num)
    norm_num at this ⊢; linarith
  have e : Real.exp (-1 / 2) = (Real.exp (1 / 2))⁻¹ := by rw [← Real.exp_neg]; norm_num
  rw [e]
  have : (Real.exp (1 / 2))⁻¹ ≤ (1.625 : ℝ)⁻¹ := inv_anti₀ (by norm_num) h
  have : (1.625 : ℝ)⁻¹ < 0.62 := by norm_num
  linarith

/-- The update from the initial state with local `log_z = log(2 e^{-1/2})` and acceptance below 1/7 is
NaN. -/
theorem wUpdate_nan {loc : DStats} (hz : loc.logZ = Real.log (2 * Real.exp (-1 / 2))) {a : ℝ}
    (ha : a ≤ 1 / 7) : (dSelectState wCfg dInit (some a) loc).logTau = none := by
  rw [dSelectState_adapts wCfg_adapts, dNewLogTau_none_iff]
  refine Or.inr (Or.inr ⟨0, a, rfl, rfl, ?_⟩)
  have : dNewLogZ wCfg (dInit.steps + 1) dInit.logZ loc.logZ = loc.logZ := by
    unfold dNewLogZ wCfg dInit; norm_num
  rw [this, hz, zero_add, Real.exp_log (by positivity)]
  have := exp_half_bound
  show _ + 3 * (a - 0.574) < 0
  norm_num at *
  linarith

theorem wFlip : flipSites ![0, 0] (fun _ => true) = (![1, 1] : Fin 2 → ℤ) := by
  funext j; fin_cases j <;> simp [flipSites]

/-- Log acceptance of flipping both sites from the origin is small when each flip has probability at
least 1/5. -/
theorem wLogAcc {px py : Fin 2 → ℝ} (hx : ∀ j, 1 / 5 ≤ px j) (hy : ∀ j, 0 < py j ∧ py j < 1) :
    wF ![1, 1] + flipLl llEps py (fun _ => true) - wF ![0, 0] - flipLl llEps px (fun _ => true) ≤ -6 := by
  have he : (0 : ℝ) ≤ llEps ∧ llEps ≤ 1 / 2 := by unfold llEps; constructor <;> norm_num
  have hxl : ∀ j, -(1.7 : ℝ) ≤ Real.log (px j + llEps) := by
    intro j
    have h5 : Real.log 5 ≤ 1.7 := by
      have : (5 : ℝ) ≤ Real.exp 1.7 := by
        have h1 := Real.quadratic_le_exp_of_nonneg (x := (0.85 : ℝ)) (by norm_num)
        have h2 : Real.exp 1.7 = Real.exp 0.85 * Real.exp 0.85 := by rw [← Real.exp_add]; norm_num
        have h3 : (2.21 : ℝ) ≤ Real.exp 0.85 := by norm_num at h1 ⊢; linarith
        have h4 : Real.exp (1.7 : ℝ) = Real.exp 0.425 * Real.exp 0.425 * (Real.exp 0.425 * Real.exp 0.425) := by
          rw [← Real.exp_add, ← Real.exp_add]; norm_num
        have h5 := Real.quadratic_le_exp_of_nonneg (x := (0.425 : ℝ)) (by norm_num)
        have h6 : (1.515 : ℝ) ≤ Real.exp 0.425 := by norm_num at h5 ⊢; linarith
        rw [h4]
        have h7 : (2.295 : ℝ) ≤ Real.exp 0.425 * Real.exp 0.425 := by nlinarith
        nlinarith
      rw [Real.log_le_iff_le_exp (by norm_num)]; exact this
    have : Real.log (1 / 5) ≤ Real.log (px j + llEps) :=
      Real.log_le_log (by norm_num) (by linarith [hx j, he.1])
    rw [one_div, Real.log_inv] at this
    linarith
  have hyl : ∀ j, Real.log (py j + llEps) ≤ 1 / 2 := by
    intro j
    have h1 : 0 < py j + llEps := by linarith [(hy j).1, he.1]
    have := Real.log_le_sub_one_of_pos h1
    linarith [(hy j).2, he.2]
  have hf : wF ![1, 1] - wF ![0, 0] = -12 := by unfold wF; norm_num
  unfold flipLl
  simp only [Fin.sum_univ_two, if_true, mul_one, sub_self, mul_zero, add_zero]
  have a0 := hxl 0; have a1 := hxl 1; have b0 := hyl 0; have b1 := hyl 1
  norm_num at *
  linarith

theorem exp_neg_six : Real.exp (-6) ≤ 1 / 7 := by
  rw [Real.exp_neg, one_div]
  exact inv_anti₀ (by norm_num) (by have := Real.add_one_le_exp (6 : ℝ); linarith)

theorem dAcc_small {l : Fin 1 → ℝ} (h : l 0 ≤ -6) : dAcc l ≤ 1 / 7 := by
  unfold dAcc meanB
  simp only [Finset.univ_unique, Fin.default_eq_zero, Finset.sum_singleton, Nat.cast_one, div_one]
  refine le_trans (Real.exp_le_exp.2 ?_) exp_neg_six
  exact (min_le_left _ _).trans h

theorem wRates : ∑ j, Real.exp (deltaBinary wG ![0, 0] j / 2) =
    2 * Real.exp (-1 / 2) := by
  rw [Fin.sum_univ_two, wDelta0, wDelta0]; ring

/-- C28 is false for DMALA: one step from the initial state with default settings, in which both sites
are proposed to flip, makes the step size NaN. -/
theorem dmala_logTau_nan (u : ℝ) :
    (dmalaBinaryStep wCfg mhTiny llEps (· / 2) wF wG (fun _ : Fin 1 => ![0, 0])
      (fun _ _ => true) (fun _ => u) dInit).2.1.logTau = none := by
  have hz : (dmalaReset fun (b : Fin 1) j => deltaBinary wG ((fun _ : Fin 1 => ![0, 0]) b) j / 2).logZ =
      Real.log (2 * Real.exp (-1 / 2)) := by
    unfold dmalaReset meanB
    simp only [wRates, Finset.univ_unique, Finset.sum_const, Finset.card_singleton, one_smul,
      Nat.cast_one, div_one]
  unfold dmalaBinaryStep
  have ht : dmalaLogTau wCfg dInit (dmalaReset fun (b : Fin 1) j =>
      deltaBinary wG ((fun _ : Fin 1 => ![0, 0]) b) j / 2) =
      some (Real.log 3 - Real.log (2 * Real.exp (-1 / 2))) := by
    simp only [dmalaLogTau, wCfg, dInit, if_true, if_false, Bool.false_eq_true]
    rw [← hz]; rfl
  simp only [ht]
  refine wUpdate_nan hz (dAcc_small ?_)
  rw [wFlip]
  refine wLogAcc (fun j => ?_) (fun j => dmalaFlipProb_mem _ _)
  rw [dmalaFlipProb_eq, wDelta0]
  unfold sigmoid
  have e : Real.exp (-(Real.log 3 - Real.log (2 * Real.exp (-1 / 2)) + -1 / 2)) = 2 / 3 := by
    have : -(Real.log 3 - Real.log (2 * Real.exp (-1 / 2)) + -1 / 2) = Real.log (2 / 3) := by
      rw [Real.log_mul (by norm_num) (Real.exp_pos _).ne', Real.log_exp,
        Real.log_div (by norm_num) (by norm_num)]; ring
    rw [this, Real.exp_log (by norm_num)]
  rw [e]; norm_num

/-- C28 is false for DLMC (default `n = 3`, interpolating solver). -/
theorem dlmc_logTau_nan (u : ℝ) :
    ∃ r, dlmcBinaryStep wCfg mhTiny llEps (· / 2) wF wG (fun _ : Fin 1 => ![0, 0])
      (fun _ _ => true) (fun _ => u) dInit = .ok r ∧ r.2.1.logTau = none := by
  have hz : (dlmcReset wCfg fun (b : Fin 1) j =>
      deltaBinary wG ((fun _ : Fin 1 => ![0, 0]) b) j / 2).logZ = Real.log (2 * Real.exp (-1 / 2)) := by
    unfold dlmcReset logsumexp
    simp only [Nat.cast_one, Real.log_one, sub_zero]
    rw [Fintype.sum_prod_type]
    simp only [wRates, Finset.univ_unique, Finset.sum_const, Finset.card_singleton, one_smul]
  have ht : dlmcLogTau wCfg dInit (dlmcReset wCfg fun (b : Fin 1) j =>
      deltaBinary wG ((fun _ : Fin 1 => ![0, 0]) b) j / 2) =
      some (Real.log 3 - Real.log (2 * Real.exp (-1 / 2))) := by
    simp only [dlmcLogTau, wCfg, dInit, if_true, if_false, Bool.false_eq_true]
    rw [← hz]; rfl
  have hsol : wCfg.solver ∈ knownSolvers := by decide
  unfold dlmcBinaryStep
  simp only [not_unknown wCfg hsol, if_false, ht]
  refine ⟨_, rfl, ?_⟩
  refine wUpdate_nan hz (dAcc_small ?_)
  rw [wFlip]
  refine wLogAcc (fun j => ?_) (fun j => ?_)
  · show 1 / 5 ≤ ((dlmcFlipProb "interpolate" _ _ _).toOption).getD 0
    rw [dlmcFlipProb_interpolate, wDelta0]
    show 1 / 5 ≤ sigmoid (-1) * (1 - Real.exp (-_))
    have e : Real.exp (Real.log 3 - Real.log (2 * Real.exp (-1 / 2))) * Real.exp (-1 / 2) = 3 / 2 := by
      rw [Real.exp_sub, Real.exp_log (by norm_num), Real.exp_log (by positivity)]
      have := Real.exp_pos (-1 / 2 : ℝ)
      field_simp
    rw [e]
    have hs : (0.26 : ℝ) ≤ sigmoid (-1) := by
      unfold sigmoid
      rw [neg_neg, le_div_iff₀ (by positivity)]
      have := Real.exp_one_lt_d9
      norm_num at this ⊢; linarith
    have hs1 := sigmoid_lt_one (-1)
    have h2 : (3 / 2 : ℝ) ≤ 3 / 2 / sigmoid (-1) := by
      rw [le_div_iff₀ (by linarith)]; nlinarith
    have h3 : Real.exp (-(3 / 2 / sigmoid (-1))) ≤ 0.23 := by
      refine (Real.exp_le_exp.2 (neg_le_neg h2)).trans ?_
      rw [Real.exp_neg]
      have h4 : Real.exp (3 / 2 : ℝ) = Real.exp 0.75 * Real.exp 0.75 := by
        rw [← Real.exp_add]; norm_num
      have h5 : Real.exp (0.75 : ℝ) = Real.exp 0.375 * Real.exp 0.375 := by
        rw [← Real.exp_add]; norm_num
      have h6 := Real.quadratic_le_exp_of_nonneg (x := (0.375 : ℝ)) (by norm_num)
      have h7 : (1.445 : ℝ) ≤ Real.exp 0.375 := by norm_num at h6 ⊢; linarith
      have h8 : (2.088 : ℝ) ≤ Real.exp 0.75 := by rw [h5]; nlinarith
      have h9 : (4.359 : ℝ) ≤ Real.exp (3 / 2) := by rw [h4]; nlinarith
      refine (inv_anti₀ (by norm_num) h9).trans (by norm_num)
    nlinarith
  · exact dlmcProb_mem wCfg (· / 2) wG hsol _ _ j

/-! ## C29 -/

/-- C29 (what the first step uses): the expected number of flips of the first adaptive step is 3 for
DMALA and `n` for DLMC. -/
theorem dmala_first_used {B : ℕ} {I : Type*} [Fintype I] (w : Fin B → I → ℝ) {c : DCfg} (hc : c.adapts) :
    ∃ t, dmalaLogTau c dInit (dmalaReset w) = some t ∧ Real.exp (t + (dmalaReset w).logZ) = 3 := by
  refine ⟨(dmalaReset w).logTau, by simp [dmalaLogTau, dInit, hc.1, hc.2], ?_⟩
  unfold dmalaReset
  simp only [sub_add_cancel]
  exact Real.exp_log (by norm_num)

theorem dlmc_first_used {B : ℕ} {I : Type*} [Fintype I] (w : Fin B → I → ℝ) {c : DCfg} (hc : c.adapts)
    (hn : 0 < c.n) :
    ∃ t, dlmcLogTau c dInit (dlmcReset c w) = some t ∧ Real.exp (t + (dlmcReset c w).logZ) = c.n := by
  refine ⟨(dlmcReset c w).logTau, by simp [dlmcLogTau, dInit, hc.1, hc.2], ?_⟩
  unfold dlmcReset
  simp only [sub_add_cancel]
  exact Real.exp_log hn

/-- C29 (what it is updated to): after the first step the expected number of flips is
`max 1 (Z + 3 (acc - target))` with `Z = exp(log_z)`; the value the step used does not enter. -/
theorem dFirst_update {c : DCfg} (hc : c.adapts) (hsched : 1 < c.scheduleStep) (a : ℝ) (loc : DStats)
    (hn : 0 ≤ Real.exp loc.logZ + 3 * (a - c.target)) :
    ∃ t, (dSelectState c dInit (some a) loc).logTau = some t ∧
      (dSelectState c dInit (some a) loc).logZ = loc.logZ ∧
      Real.exp (t + loc.logZ) = max 1 (Real.exp loc.logZ + 3 * (a - c.target)) := by
  rw [dSelectState_adapts hc]
  have hz : dNewLogZ c (dInit.steps + 1) dInit.logZ loc.logZ = loc.logZ := by
    unfold dNewLogZ dInit
    have : (((0 + 1 : ℕ) : ℤ) < c.scheduleStep) := by push_cast; omega
    simp only [this, if_true]; ring
  simp only [hz]
  obtain ⟨t, e, _, h⟩ := dNewLogTau_some (target := c.target) (t := 0) (a := a) (z := loc.logZ)
    (by rw [zero_add]; exact hn)
  exact ⟨t, e, trivial, by rw [h, zero_add]⟩

/-- C29 is false: constant model on twenty sites.  The first step uses 3 expected flips and accepts with
probability 1; afterwards the expected number of flips is `20 + 3 (1 - target)`, although
`3 |acc - target| < 2`. -/
theorem dmala_first_jump (flip : Fin 20 → Bool) (u : ℝ) :
    ∃ tUsed tNew,
      let w := fun (_ : Fin 1) (j : Fin 20) => deltaBinary (fun _ _ => 0) (fun _ => 0) j / 2
      let s' := (dmalaBinaryStep wCfg mhTiny llEps (· / 2) (fun _ => 0) (fun _ _ => 0)
        (fun (_ : Fin 1) _ => 0) (fun _ => flip) (fun _ => u) dInit).2.1
      dmalaLogTau wCfg dInit (dmalaReset w) = some tUsed ∧ s'.logTau = some tNew ∧
      Real.exp (tUsed + s'.logZ) = 3 ∧ 20 ≤ Real.exp (tNew + s'.logZ) ∧
      3 * |(1 : ℝ) - wCfg.target| < 2 := by
  have hw : (fun (_ : Fin 1) (j : Fin 20) => deltaBinary (fun _ _ => (0 : ℝ)) (fun _ => 0) j / 2) =
      fun _ _ => 0 := by funext b j; simp [deltaBinary]
  have hw' : ∀ x : Fin 20 → ℤ, (fun (_ : Fin 1) (j : Fin 20) => deltaBinary (fun _ _ => (0 : ℝ)) x j / 2) =
      fun _ _ => 0 := by intro x; funext b j; simp [deltaBinary]
  obtain ⟨t, h1, h2⟩ := dmala_first_used (fun (_ : Fin 1) (_ : Fin 20) => (0 : ℝ)) wCfg_adapts
  have hz : (dmalaReset fun (_ : Fin 1) (_ : Fin 20) => (0 : ℝ)).logZ = Real.log 20 := by
    unfold dmalaReset meanB; simp
  have hez : Real.exp (Real.log 20) = 20 := Real.exp_log (by norm_num)
  have hs : (dmalaBinaryStep wCfg mhTiny llEps (· / 2) (fun _ => 0) (fun _ _ => 0)
        (fun (_ : Fin 1) (_ : Fin 20) => 0) (fun _ => flip) (fun _ => u) dInit).2.1 =
      dSelectState wCfg dInit (some 1) (dmalaReset fun (_ : Fin 1) (_ : Fin 20) => (0 : ℝ)) := by
    unfold dmalaBinaryStep
    simp only [hw, h1]
    congr 1
    have : dmalaLogTauRev wCfg t (dmalaReset fun (_ : Fin 1) (j : Fin 20) =>
        deltaBinary (fun _ _ => (0 : ℝ)) (flipSites (fun _ => 0) flip) j / 2) = t := by
      simp [dmalaLogTauRev, wCfg]
    rw [this]
    simp only [deltaBinary, mul_zero, zero_div, zero_add, sub_zero, sub_self]
    unfold dAcc meanB clipMax
    simp
  obtain ⟨t', e1, e2, e3⟩ := dFirst_update wCfg_adapts (by decide) 1
    (dmalaReset fun (_ : Fin 1) (_ : Fin 20) => (0 : ℝ))
    (by rw [hz, hez]; show 0 ≤ 20 + 3 * ((1 : ℝ) - 0.574); norm_num)
  refine ⟨t, t', ?_⟩
  simp only [hw]
  rw [hs]
  refine ⟨h1, e1, by rw [e2]; exact h2, ?_, ?_⟩
  · rw [e2, e3, hz, hez]
    refine le_max_of_le_right ?_
    show (20 : ℝ) ≤ 20 + 3 * ((1 : ℝ) - 0.574)
    norm_num
  · show 3 * |(1 : ℝ) - 0.574| < 2
    rw [abs_of_pos (by norm_num)]; norm_num

/-- C29, the part that holds: an update that starts from the step size that was used (all steps after
the first) and at least one expected flip moves the expected number of flips by at most
`3 |acc - target|`.  Missing for the full C29: the first step. -/
theorem dUpdate_close_partial {target t a z : ℝ} (h1 : 1 ≤ Real.exp (t + z))
    (hn : 0 ≤ Real.exp (t + z) + 3 * (a - target)) :
    ∃ t', dNewLogTau target (some t) (some a) z = some t' ∧
      |Real.exp (t' + z) - Real.exp (t + z)| ≤ 3 * |a - target| := by
  obtain ⟨t', e, _, h⟩ := dNewLogTau_some hn
  refine ⟨t', e, ?_⟩
  rw [h]
  have h3 : |3 * (a - target)| = 3 * |a - target| := by rw [abs_mul]; norm_num
  rw [← h3]
  rcases le_total 1 (Real.exp (t + z) + 3 * (a - target)) with hle | hle
  · rw [max_eq_right hle, add_sub_cancel_left]
  · rw [max_eq_left hle]
    rw [abs_le]
    constructor
    · have := neg_abs_le (3 * (a - target)); linarith
    · have := abs_nonneg (3 * (a - target)); linarith

end Discs
