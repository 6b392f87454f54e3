import Verif.Lemmas.AdaptiveHits
import Verif.Props.AdaptiveLB
import Verif.Props.Search

/-!
# Property C115, adaptive GWG

The number of draws of a step of adaptive GWG is the rounded radius, which depends on the whole run.  Whatever it is,
drawing one site every time flips this site alone, so the adaptive sampler goes on visiting every sample, unlike the
adaptive random walk (C114) and the adaptive path-auxiliary sampler (C119).
-/

namespace Discs

open Finset Spec

variable {D : ℕ}

/-- A step of adaptive GWG accepts or rejects; the next radius is known before. -/
theorem gwgAdaptive_accRej (hD : 0 < D) (target : ℝ) {tiny : ℝ} (h : ℝ → ℝ) (f : ℕ → (Fin D → ℤ) → ℝ)
    (g : ℕ → (Fin D → ℤ) → Fin D → ℝ) :
    AccRejRun (Ω := fun s : LBState => Fin (numFlips D s.radius) → Fin D) (validStates 2 D) tiny
      (fun k => gwgLaws h (g k)) (fun k => gwgMove hD target tiny h (f k) (g k)) (fun _ _ x idx => gwgPropose x idx)
      (fun k _ x idx => gwgLogAcc h (f k) (g k) none x idx)
      (fun k s x idx => (gwgMove hD target tiny h (f k) (g k) s x idx 0).2) where
  prob k _ x hx := (gwg_pathMH hD _ h (f k) (g k) none).prob x hx
  closed _ _ _ hx idx := gwgPropose_valid hx idx
  state _ _ _ _ _ _ := rfl
  mh k s := gwgAdaptive_isMH hD target tiny h (f k) (g k) none s

/-- **C115 (adaptive GWG).** Whatever the target rate, the initial radius and the temperatures above a positive bound, an
annealed run of adaptive GWG visits a set with a given sample in it but for a probability that shrinks geometrically with
its length. -/
theorem gwgAdaptive_visits (hD : 0 < D) {name : String} {h : ℝ → ℝ}
    (hh : ∀ v, applyWeightLog name v = .ok (h v)) (obj pen : (Fin D → ℤ) → ℝ) {g : (Fin D → ℤ) → Fin D → ℝ}
    (temp : ℕ → ℝ) (target : ℝ) (s : LBState) {R G Tm tiny : ℝ} (ht : 0 ≤ tiny)
    (hR : ∀ x ∈ validStates 2 D, ∀ y ∈ validStates 2 D, (obj x - pen x) - (obj y - pen y) ≤ R)
    (hG : ∀ x ∈ validStates 2 D, ∀ j, |g x j| ≤ G) (hTm : 0 < Tm) (n : ℕ)
    (hlow : ∀ t < n, Tm ≤ temp (t + 1))
    (hδ : tiny ≤ (Real.exp (-(2 * G / Tm)) / D) ^ D * Real.exp (-(R / Tm))) {x y : Fin D → ℤ}
    (hx : x ∈ validStates 2 D) (hy : y ∈ validStates 2 D) {Y : Finset (Fin D → ℤ)} (hyY : y ∈ Y) :
    1 - (1 - ((Real.exp (-(2 * G / Tm)) / D) ^ D * Real.exp (-(R / Tm)) - tiny) ^ D) ^ (n / D) ≤
      pathExpect (fun t => gwgLaws h (annealGrad g temp t))
        (fun t => gwgMove hD target tiny h (annealEnergy obj pen temp t) (annealGrad g temp t))
        (indic fun path => ∃ z ∈ path, z ∈ Y) n 0 s [] x := by
  have hG0 := gwgGrad_nonneg hD hG
  have hp1 : Real.exp (-(2 * G / Tm)) / D ≤ 1 := gwgFloor_le_one hD hG0 hTm
  have hR0 : 0 ≤ R := by have := hR x hx x hx; linarith
  have hr1 : Real.exp (-(R / Tm)) ≤ 1 := Real.exp_le_one_iff.2 (by have := div_nonneg hR0 hTm.le; linarith)
  have hD' : (0 : ℝ) < D := by exact_mod_cast hD
  have ha0 : 0 ≤ Real.exp (-(2 * G / Tm)) / D := by positivity
  have ha1 : (Real.exp (-(2 * G / Tm)) / D) ^ D ≤ 1 := pow_le_one₀ ha0 hp1
  refine (gwgAdaptive_accRej hD target h _ _).hits ht (R := fun a b => ∃ i, b i ≠ a i ∧ ∀ j, j ≠ i → b j = a j)
    (by linarith) ?_ (T := n) ?_ hy hyY (fun x hx => ⟨_, ?_, Walk.sites mix_valid (fun _ _ _ _ h => h) x hx y hy⟩) (n / D) n
    (Nat.div_mul_le_self n D) 0 (zero_add n).le s [] x hx
  · have := mul_le_one₀ ha1 (Real.exp_pos (-(R / Tm))).le hr1
    linarith
  · rintro t htn σ a ha b hb ⟨i, hi, hj⟩
    have hk := numFlips_pos hD σ.radius
    set idx : Fin (numFlips D σ.radius) → Fin D := fun _ => i with hidx
    have he : gwgPropose a idx = b := gwgPropose_site hk ha hb hi hj
    have hne : gwgPropose a idx ≠ a := by rw [he]; exact fun e => hi (by rw [e])
    refine ⟨idx, he, ?_⟩
    have hpos : ∀ z ∈ validStates 2 D, (Real.exp (-(2 * G / Tm)) / D) ^ D ≤
        gwgDrawLaw h (annealGrad g temp t) none z idx := by
      intro z hz
      unfold gwgDrawLaw
      calc (Real.exp (-(2 * G / Tm)) / D) ^ D ≤ (Real.exp (-(2 * G / Tm)) / D) ^ numFlips D σ.radius :=
            pow_le_pow_of_le_one ha0 hp1 (numFlips_le _)
        _ = ∏ _i : Fin (numFlips D σ.radius), Real.exp (-(2 * G / Tm)) / D := by
          rw [Finset.prod_const, Finset.card_univ, Fintype.card_fin]
        _ ≤ _ := Finset.prod_le_prod (fun _ _ => ha0) fun i _ => gwg_index_ge hh hG hTm (hlow t htn) hz (idx i)
    have M := gwg_pathMH hD (numFlips D σ.radius) h (annealEnergy obj pen temp t) (annealGrad g temp t) none
    have hq0 : gwgDrawLaw h (annealGrad g temp t) none a idx ≠ 0 := by
      have := hpos a ha
      have h0 : 0 < (Real.exp (-(2 * G / Tm)) / D) ^ D := by positivity
      linarith
    have hq1 : gwgDrawLaw h (annealGrad g temp t) none a idx ≤ 1 := by
      have hp := M.prob a ha
      rw [← hp.2]; exact Finset.single_le_sum (fun e _ => hp.1 e) (mem_univ idx)
    have hratio := M.ratio a ha idx hq0 hne
    rw [he] at hratio
    set q := gwgDrawLaw h (annealGrad g temp t) none a idx with hq
    set l := gwgLogAcc h (annealEnergy obj pen temp t) (annealGrad g temp t) none a idx with hl
    show _ ≤ q * acceptProb tiny l
    have hclose := (abs_le.1 (acceptProb_close ht l)).1
    rw [acceptProb_zero] at hclose
    have hfloor : (Real.exp (-(2 * G / Tm)) / D) ^ D * Real.exp (-(R / Tm)) ≤ q * min 1 (Real.exp l) := by
      rcases le_total 1 (Real.exp l) with e | e
      · rw [min_eq_left e, mul_one]
        exact (mul_le_of_le_one_right (by positivity) hr1).trans (hpos a ha)
      · rw [min_eq_right e]
        have hd := annealEnergy_diff hR hTm (hlow t htn) a ha b hb
        have h2 : q * Real.exp l = Real.exp (annealEnergy obj pen temp t b - annealEnergy obj pen temp t a) *
            gwgDrawLaw h (annealGrad g temp t) none b idx := by
          rw [Real.exp_sub, div_mul_eq_mul_div, hratio]
          field_simp
        rw [h2, mul_comm]
        exact mul_le_mul (Real.exp_le_exp.2 (by linarith)) (hpos b hb) (by positivity) (Real.exp_pos _).le
    have hq0' : 0 ≤ q := (by positivity : (0:ℝ) ≤ (Real.exp (-(2 * G / Tm)) / D) ^ D).trans (hpos a ha)
    nlinarith
  · exact (Finset.card_filter_le _ _).trans (by simp)

/-- **C115 (adaptive GWG).** The probability to visit the set tends to one with the length of the run. -/
theorem gwgAdaptive_visits_tendsto (hD : 0 < D) {name : String} {h : ℝ → ℝ}
    (hh : ∀ v, applyWeightLog name v = .ok (h v)) (obj pen : (Fin D → ℤ) → ℝ) {g : (Fin D → ℤ) → Fin D → ℝ}
    (temp : ℕ → ℝ) (target : ℝ) (s : LBState) {R G Tm tiny : ℝ} (ht : 0 ≤ tiny)
    (hR : ∀ x ∈ validStates 2 D, ∀ y ∈ validStates 2 D, (obj x - pen x) - (obj y - pen y) ≤ R)
    (hG : ∀ x ∈ validStates 2 D, ∀ j, |g x j| ≤ G) (hTm : 0 < Tm) (hlow : ∀ t, Tm ≤ temp (t + 1))
    (hδ : tiny < (Real.exp (-(2 * G / Tm)) / D) ^ D * Real.exp (-(R / Tm))) {x y : Fin D → ℤ}
    (hx : x ∈ validStates 2 D) (hy : y ∈ validStates 2 D) {Y : Finset (Fin D → ℤ)} (hyY : y ∈ Y) {ε : ℝ} (hε : 0 < ε) :
    ∃ n₀, ∀ n ≥ n₀, 1 - ε ≤ pathExpect (fun t => gwgLaws h (annealGrad g temp t))
        (fun t => gwgMove hD target tiny h (annealEnergy obj pen temp t) (annealGrad g temp t))
        (indic fun path => ∃ z ∈ path, z ∈ Y) n 0 s [] x := by
  set δ := (Real.exp (-(2 * G / Tm)) / D) ^ D * Real.exp (-(R / Tm)) - tiny with hδ'
  have hδ0 : 0 < δ := by linarith
  have hpow : 0 < δ ^ D := pow_pos hδ0 D
  have hb : ∀ n, 1 - (1 - δ ^ D) ^ (n / D) ≤ pathExpect (fun t => gwgLaws h (annealGrad g temp t))
        (fun t => gwgMove hD target tiny h (annealEnergy obj pen temp t) (annealGrad g temp t))
        (indic fun path => ∃ z ∈ path, z ∈ Y) n 0 s [] x :=
    fun n => gwgAdaptive_visits hD hh obj pen temp target s ht hR hG hTm n (fun t _ => hlow t) hδ.le hx hy hyY
  have hG0 := gwgGrad_nonneg hD hG
  have hp1 : Real.exp (-(2 * G / Tm)) / D ≤ 1 := gwgFloor_le_one hD hG0 hTm
  have hR0 : 0 ≤ R := by have := hR x hx x hx; linarith
  have hr1 : Real.exp (-(R / Tm)) ≤ 1 := Real.exp_le_one_iff.2 (by have := div_nonneg hR0 hTm.le; linarith)
  have hδ1 : δ ≤ 1 := by
    have := mul_le_one₀ (pow_le_one₀ (by positivity) hp1 : (Real.exp (-(2 * G / Tm)) / D) ^ D ≤ 1)
      (Real.exp_pos (-(R / Tm))).le hr1
    linarith
  have hlim := tendsto_pow_atTop_nhds_zero_of_lt_one (r := 1 - δ ^ D) (by have := pow_le_one₀ hδ0.le hδ1 (n := D); linarith)
    (by linarith)
  obtain ⟨m, hm⟩ := (hlim.eventually (gt_mem_nhds hε)).exists_forall_of_atTop
  refine ⟨m * D, fun n hn => le_trans ?_ (hb n)⟩
  have := hm (n / D) ((Nat.le_div_iff_mul_le hD).2 hn)
  linarith

/-- Two sites at constant temperature one, the code's acceptance test, target rate 0.574. -/
example (s : LBState) {x : Fin 2 → ℤ} (hx : x ∈ validStates 2 2) {ε : ℝ} (hε : 0 < ε) : ∃ n₀, ∀ n ≥ n₀, 1 - ε ≤
    pathExpect (fun t => gwgLaws (· / 2) (annealGrad (fun _ _ => 0) (fun _ => 1) t))
      (fun t => gwgMove (D := 2) (by norm_num) (574 / 1000) mhTiny (· / 2)
        (annealEnergy (fun x => (x 0 : ℝ)) noPenalty (fun _ => 1) t) (annealGrad (fun _ _ => 0) (fun _ => 1) t))
      (indic fun path => ∃ z ∈ path, z ∈ ({fun _ => 1} : Finset (Fin 2 → ℤ))) n 0 s [] x := by
  refine gwgAdaptive_visits_tendsto (D := 2) (by norm_num) (name := "SQRT") (fun v => by simp [applyWeightLog]) _ _ _ _ s
    (R := 1) (G := 0) (Tm := 1) (by norm_num [mhTiny]) (fun x hx y hy => ?_) (by simp) one_pos (fun _ => le_rfl) ?_ hx
    (mem_validStates_two.2 fun _ => Or.inr rfl) (mem_singleton_self _) hε
  · rcases mem_validStates_two.1 hx 0 with a | a <;> rcases mem_validStates_two.1 hy 0 with b | b <;>
      rw [a, b] <;> norm_num [noPenalty]
  · have h1 : (1 / 3 : ℝ) ≤ Real.exp (-(1 / 1)) := by
      have h2 := Real.exp_one_lt_d9
      have h3 := Real.exp_pos 1
      rw [div_one, Real.exp_neg, ← one_div]
      exact one_div_le_one_div_of_le h3 (by linarith)
    calc mhTiny < (1 / 2 : ℝ) ^ 2 * (1 / 3) := by norm_num [mhTiny]
      _ ≤ _ := by simpa using h1

end Discs
