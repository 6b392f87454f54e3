import Verif.Lemmas.AnnealWalk
import Verif.Model.AnnealGWG
import Verif.Props.AnnealGibbs
import Verif.Props.ConvergenceGWG

/-!
# Property C109 for the GWG samplers

One step flips a few sites, so several steps are needed to reach every sample.  With at least two flips per step
`dim + 2` steps are enough, whatever the starting and the final sample.
-/

namespace Discs

open Finset Spec

variable {D : ℕ}

theorem logSigmoid_lip (v w : ℝ) : logSigmoid v - logSigmoid w ≤ |v - w| := by
  unfold logSigmoid
  have h1 : Real.log (1 + Real.exp (-w)) ≤ |v - w| + Real.log (1 + Real.exp (-v)) := by
    rw [← Real.log_exp |v - w|, ← Real.log_mul (by positivity) (by positivity)]
    refine Real.log_le_log (by positivity) ?_
    have e1 : 1 ≤ Real.exp |v - w| := Real.one_le_exp (abs_nonneg _)
    have e2 : Real.exp (-w) ≤ Real.exp |v - w| * Real.exp (-v) := by
      rw [← Real.exp_add]
      exact Real.exp_le_exp.2 (by linarith [le_abs_self (v - w)])
    nlinarith
  linarith

/-- The configured balancing functions change, in log scale, no faster than their argument. -/
theorem applyWeightLog_lip {name : String} {h : ℝ → ℝ} (hh : ∀ v, applyWeightLog name v = .ok (h v)) (v w : ℝ) :
    h v - h w ≤ |v - w| := by
  have hv := hh v
  have hw := hh w
  unfold applyWeightLog at hv hw
  split_ifs at hv hw <;> simp only [Except.ok.injEq] at hv hw <;> rw [← hv, ← hw]
  · have := le_abs_self (v - w)
    have := abs_nonneg (v - w)
    linarith
  · exact logSigmoid_lip v w
  · unfold clipMin
    exact (le_abs_self _).trans (abs_max_sub_max_le_abs _ _ _)
  · unfold clipMax
    exact (le_abs_self _).trans (abs_min_sub_min_le_max _ _ _ _ |>.trans (by simp))

/-- Probability of any one index under the annealed proposal. -/
theorem gwg_index_ge {name : String} {h : ℝ → ℝ} (hh : ∀ v, applyWeightLog name v = .ok (h v))
    {g : (Fin D → ℤ) → Fin D → ℝ} {G Tm : ℝ} (hG : ∀ x ∈ validStates 2 D, ∀ j, |g x j| ≤ G) (hTm : 0 < Tm)
    {temp : ℕ → ℝ} {t : ℕ} (hT : Tm ≤ temp (t + 1)) {x : Fin D → ℤ} (hx : x ∈ validStates 2 D) (j : Fin D) :
    Real.exp (-(2 * G / Tm)) / D ≤ softmax (gwgDist h none x (annealGrad g temp t x)) j := by
  have : Nonempty (Fin D) := ⟨j⟩
  have hx' := mem_validStates_two.1 hx
  have hT0 : 0 < temp (t + 1) := hTm.trans_le hT
  have hb : ∀ j, |(1 - 2 * (x j : ℝ)) * annealGrad g temp t x j| ≤ G / Tm := by
    intro j
    have e : |(1 - 2 * (x j : ℝ))| = 1 := by
      rcases hx' j with e | e <;> rw [e] <;> norm_num
    rw [abs_mul, e, one_mul, annealGrad, one_mul, abs_div, abs_of_pos hT0]
    exact (div_le_div_of_nonneg_right (hG x hx j) hT0.le).trans
      (div_le_div_of_nonneg_left ((abs_nonneg _).trans (hG x hx j)) hTm hT)
  unfold gwgDist
  rw [softmax_logSoftmax]
  have := softmax_ge (fun j => h ((1 - 2 * (x j : ℝ)) * annealGrad g temp t x j)) (r := 2 * G / Tm) j fun i => by
    refine (applyWeightLog_lip hh _ _).trans ((abs_sub _ _).trans ?_)
    have e : 2 * G / Tm = G / Tm + G / Tm := by ring
    rw [e]
    exact add_le_add (hb i) (hb j)
  simpa [applyMask] using this

/-- Any one site and any two sites are flipped with at least the probability of a particular draw, and back. -/
theorem gwg_reaches_ge {k kmax : ℕ} (hk : 2 ≤ k) (hkm : k ≤ kmax) {h : ℝ → ℝ} {g : (Fin D → ℤ) → Fin D → ℝ} {p : ℝ}
    (hp : 0 ≤ p) (hp1 : p ≤ 1)
    (hq : ∀ x ∈ validStates 2 D, ∀ j, p ≤ softmax (gwgDist h none x (g x)) j) {x y : Fin D → ℤ}
    (hx : x ∈ validStates 2 D) (hy : y ∈ validStates 2 D) (hxy : nearMove x y) :
    ∃ idx : Fin k → Fin D, gwgPropose x idx = y ∧ p ^ kmax ≤ gwgDrawLaw h g none x idx ∧
      p ^ kmax ≤ gwgDrawLaw h g none y idx := by
  obtain ⟨idx, h1, -⟩ := gwg_reaches hk h g none hx hy hxy
  have hge : ∀ x ∈ validStates 2 D, p ^ kmax ≤ gwgDrawLaw h g none x idx := by
    intro x hx
    refine (pow_le_pow_of_le_one hp hp1 hkm).trans ?_
    unfold gwgDrawLaw
    calc p ^ k = ∏ _i : Fin k, p := by simp
      _ ≤ _ := Finset.prod_le_prod (fun _ _ => hp) fun i _ => hq x hx (idx i)
  exact ⟨idx, h1, hge x hx, hge y hy⟩

theorem gwgFloor_le_one {G Tm : ℝ} (hD : 0 < D) (hG : 0 ≤ G) (hTm : 0 < Tm) :
    Real.exp (-(2 * G / Tm)) / D ≤ 1 := by
  have hD1 : (1 : ℝ) ≤ D := by exact_mod_cast hD
  rw [div_le_one (by linarith)]
  exact (Real.exp_le_one_iff.2 (neg_nonpos.2 (by positivity))).trans hD1

theorem gwgGrad_nonneg (hD : 0 < D) {g : (Fin D → ℤ) → Fin D → ℝ} {G : ℝ}
    (hG : ∀ x ∈ validStates 2 D, ∀ j, |g x j| ≤ G) : 0 ≤ G :=
  (abs_nonneg _).trans (hG (fun _ => 0) (mem_validStates_two.2 fun _ => Or.inl rfl) ⟨0, hD⟩)

/-- **C109 (GWG).** Law of the last sample of an annealed GWG run with at least two flips per step: distance to
the Boltzmann law at the last temperature.  `G` bounds the gradient of the score. -/
theorem gwg_anneal (hD : 2 ≤ D) {k : ℕ} (hk : 2 ≤ k) {tiny : ℝ} (ht : 0 ≤ tiny) {name : String} {h : ℝ → ℝ}
    (hh : ∀ v, applyWeightLog name v = .ok (h v)) (obj pen : (Fin D → ℤ) → ℝ) {g : (Fin D → ℤ) → Fin D → ℝ}
    (temp : ℕ → ℝ) (s : ℕ → LBState) {R G lam Tm : ℝ} (hlam : 0 ≤ lam)
    (hR : ∀ x ∈ validStates 2 D, ∀ y ∈ validStates 2 D, (obj x - pen x) - (obj y - pen y) ≤ R)
    (hG : ∀ x ∈ validStates 2 D, ∀ j, |g x j| ≤ G) (L : ℕ)
    (hT : ∀ t < L, |1 / temp t - 1 / temp (t + 1)| ≤ lam) (hTm : 0 < Tm) (hlow : ∀ t < L, Tm ≤ temp (t + 1)) :
    let δ := ((Real.exp (-(2 * G / Tm)) / D) ^ k * Real.exp (-(R / Tm))) ^ (D + 2)
    ∀ x ∈ validStates 2 D,
      l1 (validStates 2 D) (iterate (validStates 2 D) (gwgAnneal k tiny h obj pen g temp s) L x)
        (target (validStates 2 D) (boltz (fun x => obj x - pen x) (temp L))) ≤
      2 * (1 - δ) ^ (L / (D + 2)) + (D + 2 : ℕ) * (2 * (lam * R) + 2 * tiny) / δ := by
  intro δ
  have hD0 : (0 : ℝ) < D := by exact_mod_cast (by omega : 0 < D)
  have hp1 : Real.exp (-(2 * G / Tm)) / D ≤ 1 := gwgFloor_le_one (by omega) (gwgGrad_nonneg (by omega) hG) hTm
  exact PathMH.anneal_walk (Ω := fun _ => Fin k → Fin D) (E := fun x => obj x - pen x) (T := temp) (fun t => by
      rw [← annealEnergy_boltz]
      exact gwg_pathMH (by omega) k h (annealEnergy obj pen temp t) (annealGrad g temp t) none)
    (Rel := nearMove) (m := D + 2) (nearMove_walk hD) (by positivity) (pow_le_one₀ (by positivity) hp1) hlam hR L hT
    hTm hlow
    (fun t htL x hx y hy hxy => gwg_reaches_ge hk le_rfl (by positivity) hp1
      (fun x hx j => gwg_index_ge hh hG hTm (hlow t htL) hx j) hx hy hxy) ht
    (fun t => gwg_isMH k tiny h _ _ none (s t)) fun t x _ y => rfl

/-- **C109 (adaptive GWG).** The same as long as the radius rounds to at least two flips. -/
theorem gwgAdaptive_anneal (hD : 2 ≤ D) (tgt : ℝ) {tiny : ℝ} (ht : 0 ≤ tiny) {name : String} {h : ℝ → ℝ}
    (hh : ∀ v, applyWeightLog name v = .ok (h v)) (obj pen : (Fin D → ℤ) → ℝ) {g : (Fin D → ℤ) → Fin D → ℝ}
    (temp : ℕ → ℝ) (s : ℕ → LBState) {R G lam Tm : ℝ} (hlam : 0 ≤ lam)
    (hR : ∀ x ∈ validStates 2 D, ∀ y ∈ validStates 2 D, (obj x - pen x) - (obj y - pen y) ≤ R)
    (hG : ∀ x ∈ validStates 2 D, ∀ j, |g x j| ≤ G) (L : ℕ)
    (hT : ∀ t < L, |1 / temp t - 1 / temp (t + 1)| ≤ lam) (hTm : 0 < Tm) (hlow : ∀ t < L, Tm ≤ temp (t + 1))
    (hs : ∀ t < L, 2 ≤ numFlips D (s t).radius) :
    let δ := ((Real.exp (-(2 * G / Tm)) / D) ^ D * Real.exp (-(R / Tm))) ^ (D + 2)
    ∀ x ∈ validStates 2 D,
      l1 (validStates 2 D)
        (iterate (validStates 2 D) (gwgAdaptiveAnneal (by omega) tgt tiny h obj pen g temp s) L x)
        (target (validStates 2 D) (boltz (fun x => obj x - pen x) (temp L))) ≤
      2 * (1 - δ) ^ (L / (D + 2)) + (D + 2 : ℕ) * (2 * (lam * R) + 2 * tiny) / δ := by
  intro δ
  have hD0 : (0 : ℝ) < D := by exact_mod_cast (by omega : 0 < D)
  have hp1 : Real.exp (-(2 * G / Tm)) / D ≤ 1 := gwgFloor_le_one (by omega) (gwgGrad_nonneg (by omega) hG) hTm
  exact PathMH.anneal_walk (Ω := fun t => Fin (numFlips D (s t).radius) → Fin D) (E := fun x => obj x - pen x)
    (T := temp) (fun t => by
      rw [← annealEnergy_boltz]
      exact gwg_pathMH (by omega) _ h (annealEnergy obj pen temp t) (annealGrad g temp t) none)
    (Rel := nearMove) (m := D + 2) (nearMove_walk hD) (by positivity) (pow_le_one₀ (by positivity) hp1) hlam hR L hT
    hTm hlow
    (fun t htL x hx y hy hxy => gwg_reaches_ge (hs t htL) (by unfold numFlips; omega) (by positivity) hp1
      (fun x hx j => gwg_index_ge hh hG hTm (hlow t htL) hx j) hx hy hxy) ht
    (fun t => gwgAdaptive_isMH (by omega) tgt tiny h _ _ none (s t)) fun t x _ y => rfl

/-! ### Optima and long chains -/

/-- **C109 (adaptive GWG).** Probability that the last sample is an optimum. -/
theorem gwgAdaptive_anneal_optimum (hD : 2 ≤ D) (tgt : ℝ) {tiny : ℝ} (ht : 0 ≤ tiny) {name : String} {h : ℝ → ℝ}
    (hh : ∀ v, applyWeightLog name v = .ok (h v)) (obj pen : (Fin D → ℤ) → ℝ) {g : (Fin D → ℤ) → Fin D → ℝ}
    (temp : ℕ → ℝ) (s : ℕ → LBState) {R G lam Tm gap : ℝ} (hlam : 0 ≤ lam)
    (hR : ∀ x ∈ validStates 2 D, ∀ y ∈ validStates 2 D, (obj x - pen x) - (obj y - pen y) ≤ R)
    (hG : ∀ x ∈ validStates 2 D, ∀ j, |g x j| ≤ G) (L : ℕ)
    (hT : ∀ t < L, |1 / temp t - 1 / temp (t + 1)| ≤ lam) (hTm : 0 < Tm) (hlow : ∀ t < L, Tm ≤ temp (t + 1))
    (hs : ∀ t < L, 2 ≤ numFlips D (s t).radius) (hTL : 0 < temp L)
    (hgap : ∀ x ∈ optima (validStates 2 D) (fun x => obj x - pen x), ∀ y ∈ validStates 2 D,
      y ∉ optima (validStates 2 D) (fun x => obj x - pen x) → (obj y - pen y) + gap ≤ obj x - pen x) :
    let δ := ((Real.exp (-(2 * G / Tm)) / D) ^ D * Real.exp (-(R / Tm))) ^ (D + 2)
    ∀ x ∈ validStates 2 D,
      1 - 2 ^ D * Real.exp (-(gap / temp L)) -
        ((1 - δ) ^ (L / (D + 2)) + (D + 2 : ℕ) * (lam * R + tiny) / δ) ≤
      mass (iterate (validStates 2 D) (gwgAdaptiveAnneal (by omega) tgt tiny h obj pen g temp s) L x)
        (optima (validStates 2 D) (fun x => obj x - pen x)) := by
  intro δ x hx
  have h1 := gwgAdaptive_anneal hD tgt ht hh obj pen temp s hlam hR hG L hT hTm hlow hs x hx
  have h2 := (optima_of_l1 ⟨x, hx⟩ hTL ((stochastic_iterate
    (fun t => gwgAdaptive_stochastic (by omega) tgt ht h _ _ none (s t)) L).2.1 x hx)
    (h1.trans (le_of_eq (by ring : _ = 2 * ((1 - δ) ^ (L / (D + 2)) +
      (D + 2 : ℕ) * (lam * R + tiny) / δ))))).1 gap hgap
  rwa [card_validStates] at h2

theorem exists_gradBound (g : (Fin D → ℤ) → Fin D → ℝ) : ∃ G, ∀ x ∈ validStates 2 D, ∀ j, |g x j| ≤ G := by
  refine ⟨∑ x ∈ validStates 2 D, ∑ j, |g x j|, fun x hx j => ?_⟩
  exact (Finset.single_le_sum (f := fun j => |g x j|) (fun _ _ => abs_nonneg _) (mem_univ j)).trans
    (Finset.single_le_sum (f := fun x => ∑ j, |g x j|) (fun _ _ => Finset.sum_nonneg fun _ _ => abs_nonneg _) hx)

theorem anneal_tail_split {m : ℕ} {lam R tiny δ : ℝ} :
    m * (2 * (lam * R) + 2 * tiny) / δ = m * (2 * (lam * R)) / δ + m * (2 * tiny) / δ := by ring

/-- **C109 (adaptive GWG, both schedules).** Long runs end with the Boltzmann law at the last temperature of the
schedule, up to the cost of the offset of the acceptance test, for every history of radii that round to at least
two flips. -/
theorem gwgAdaptive_anneal_long (hD : 2 ≤ D) {name : String} {h : ℝ → ℝ}
    (hh : ∀ v, applyWeightLog name v = .ok (h v)) (obj pen : (Fin D → ℤ) → ℝ) (g : (Fin D → ℤ) → Fin D → ℝ)
    {init fin rate : ℝ} (hif : fin ≤ init) (hf : 0 < fin) (hr0 : 0 < rate) (hr1 : rate < 1) :
    ∃ c : ℝ, ∀ ε > 0, ∃ L₀ : ℕ, ∀ L, L₀ ≤ L → ∀ tgt tiny : ℝ, 0 ≤ tiny → ∀ s : ℕ → LBState,
      (∀ t < L, 2 ≤ numFlips D (s t).radius) → ∀ x ∈ validStates 2 D,
      l1 (validStates 2 D) (iterate (validStates 2 D)
          (gwgAdaptiveAnneal (by omega) tgt tiny h obj pen g (linearSchedule init fin L) s) L x)
        (target (validStates 2 D) (boltz (fun x => obj x - pen x) fin)) ≤ ε + c * tiny ∧
      l1 (validStates 2 D) (iterate (validStates 2 D)
          (gwgAdaptiveAnneal (by omega) tgt tiny h obj pen g (expSchedule init fin rate L) s) L x)
        (target (validStates 2 D) (boltz (fun x => obj x - pen x) (max (init * rate) fin))) ≤ ε + c * tiny := by
  obtain ⟨R, hR⟩ := exists_range (validStates 2 D) fun x => obj x - pen x
  obtain ⟨G, hG⟩ := exists_gradBound g
  have hm : 0 < max (init * rate) fin := lt_max_of_lt_right hf
  have hD0 : (0 : ℝ) < D := by exact_mod_cast (by omega : 0 < D)
  have hG0 := gwgGrad_nonneg (by omega) hG
  have hz : (fun _ => 0 : Fin D → ℤ) ∈ validStates 2 D := mem_validStates_two.2 fun _ => Or.inl rfl
  have hR0 : 0 ≤ R := by have := hR _ hz _ hz; linarith
  set δ := ((Real.exp (-(2 * G / fin)) / D) ^ D * Real.exp (-(R / fin))) ^ (D + 2) with hδ
  have hp1 := gwgFloor_le_one (by omega : 0 < D) hG0 hf
  have hδ0 : 0 < δ := by positivity
  have hδ1 : δ ≤ 1 := pow_le_one₀ (by positivity) (mul_le_one₀ (pow_le_one₀ (by positivity) hp1) (by positivity)
    (Real.exp_le_one_iff.2 (neg_nonpos.2 (by positivity))))
  refine ⟨(D + 2 : ℕ) * 2 / δ, fun ε hε => ?_⟩
  obtain ⟨L₁, h1, hL₁⟩ := anneal_long_sweeps (b := δ) (Λ := (init - fin) / fin ^ 2 * R) hδ0 hδ1
    (by omega : 0 < D + 2) hε
  obtain ⟨L₂, h2, hL₂⟩ := anneal_long_sweeps (b := δ) (Λ := -Real.log rate / max (init * rate) fin * R) hδ0 hδ1
    (by omega : 0 < D + 2) hε
  refine ⟨max L₁ L₂, fun L hL tgt tiny ht s hs x hx => ?_⟩
  have hLp : 0 < L := by omega
  have hLp' : (0 : ℝ) < L := by exact_mod_cast hLp
  have hlog : 0 ≤ -Real.log rate := neg_nonneg.2 (Real.log_nonpos hr0.le hr1.le)
  have ec : ((D + 2 : ℕ) : ℝ) * 2 / δ * tiny = (D + 2 : ℕ) * (2 * tiny) / δ := by ring
  constructor
  · have h := gwgAdaptive_anneal hD tgt ht hh obj pen (linearSchedule init fin L) s
      (lam := (init - fin) / (L * fin ^ 2)) (div_nonneg (by linarith) (by positivity)) hR hG L
      (fun t htL => linear_drift hif hf htL) hf
      (fun t _ => (linear_schedule init fin hif hf L (t + 1) (t + 1) le_rfl).2.2.1) hs x hx
    rw [(linear_schedule init fin hif hf L L L le_rfl).2.2.2.2 hLp, anneal_tail_split,
      show (init - fin) / (L * fin ^ 2) * R = (init - fin) / fin ^ 2 * R / L by field_simp, ← add_assoc, ← ec] at h
    exact h.trans (add_le_add (hL₁ L (by omega)) le_rfl)
  · have h := gwgAdaptive_anneal hD tgt ht hh obj pen (expSchedule init fin rate L) s
      (lam := -Real.log rate / (L * max (init * rate) fin)) (by positivity) hR hG L
      (fun t htL => exp_drift hif hf hr0 hr1 htL) hf
      (fun t _ => (exp_schedule init fin rate hif hf hr0 hr1 L (t + 1) (t + 1) le_rfl).2.2.1) hs x hx
    rw [(exp_schedule init fin rate hif hf hr0 hr1 L L L le_rfl).2.2.2.2 hLp, anneal_tail_split,
      show -Real.log rate / (L * max (init * rate) fin) * R = -Real.log rate / max (init * rate) fin * R / L by
        field_simp, ← add_assoc, ← ec] at h
    exact h.trans (add_le_add (hL₂ L (by omega)) le_rfl)

/-- A non-trivial instance: two sites, a score with a unique optimum, the balancing function `SQRT`, a constant
radius of two flips, and the ideal acceptance test. -/
example : ∀ ε > 0, ∃ L₀ : ℕ, ∀ L, L₀ ≤ L → ∀ x ∈ validStates 2 2,
    l1 (validStates 2 2) (iterate (validStates 2 2) (gwgAdaptiveAnneal (D := 2) (by omega) 0.574 0 (· / 2)
        (fun x => (x 0 : ℝ) + 2 * x 1) (fun _ => 0) (fun _ j => if j = 0 then 1 else 2)
        (expSchedule 1 0.001 0.05 L) (fun _ => ⟨0, 0, 2⟩)) L x)
      (target (validStates 2 2) (boltz (fun x => (x 0 : ℝ) + 2 * x 1 - 0) (max (1 * 0.05) 0.001))) ≤ ε := by
  obtain ⟨c, hc⟩ := gwgAdaptive_anneal_long (D := 2) le_rfl (name := "SQRT") (h := (· / 2))
    (fun v => by simp [applyWeightLog]) (fun x => (x 0 : ℝ) + 2 * x 1) (fun _ => 0)
    (fun _ j => if j = 0 then 1 else 2) (init := 1) (fin := 0.001) (rate := 0.05) (by norm_num) (by norm_num)
    (by norm_num) (by norm_num)
  intro ε hε
  obtain ⟨L₀, h⟩ := hc ε hε
  refine ⟨L₀, fun L hL x hx => ?_⟩
  have hn : 2 ≤ numFlips 2 2 := by
    have h : ⌊(2 : ℝ)⌋ = 2 := by norm_num [Int.floor_eq_iff]
    unfold numFlips roundHalfEven
    simp only [h]
    norm_num
  have := (h L hL 0.574 0 le_rfl (fun _ => ⟨0, 0, 2⟩) (fun _ _ => hn) x hx).2
  rwa [mul_zero, add_zero] at this

end Discs
