import Verif.Lemmas.SiteAverage
import Verif.Props.AdaptiveLB

/-!
# Property C90: averages along an adaptive run

What an experiment reports are averages over a run whose step sizes are adapted all the time (the samplers
never stop adapting).  On a model that looks at one of two sites the radius takes finitely many values, and
Poisson's equation gives the exact limit of the share of time of that site.
-/

namespace Discs.Spec

open Finset Filter

variable {X St : Type*} {Ω : St → Type*} [∀ s, Fintype (Ω s)]

/-- Expected average of `φ` over the first `n` samples of an adaptive run. -/
noncomputable def adaptiveAverage (p : ∀ s, X → Ω s → ℝ) (step : ∀ s, X → Ω s → ℝ → X × St) (φ : X → ℝ)
    (n : ℕ) (s : St) (x : X) : ℝ := (∑ k ∈ range n, adaptiveExpect p step φ k s x) / n

/-- Averages along the run converge to expectations under the target. -/
def AveragesEstimate (S : Finset X) (π : X → ℝ) (p : ∀ s, X → Ω s → ℝ)
    (step : ∀ s, X → Ω s → ℝ → X × St) (s₀ : St) : Prop :=
  ∀ φ : X → ℝ, ∀ x ∈ S, Tendsto (fun n => adaptiveAverage p step φ n s₀ x) atTop
    (nhds ((∑ x ∈ S, π x * φ x) / ∑ x ∈ S, π x))

end Discs.Spec

namespace Discs

open Finset Spec Filter

/-! ## The radii on two sites -/

/-- Radii reached from 1 on two sites when a rejected flip lowers the radius as much as an accepted one
raises it. -/
noncomputable def sixRad (t : ℝ) : Fin 6 → ℝ := ![1, 2 - t, 3 - 2 * t, 2, 1 + t, 2 * t]

def sixUp : Fin 6 → Fin 6 := ![1, 2, 3, 3, 3, 4]
def sixDn : Fin 6 → Fin 6 := ![0, 0, 1, 4, 5, 0]

theorem nextRadius_two {t r a v : ℝ} (h : (r + a - t = v ∧ 1 ≤ v ∧ v ≤ 2) ∨ (2 ≤ r + a - t ∧ v = 2) ∨
    (r + a - t ≤ 1 ∧ v = 1)) : nextRadius 2 t r a = v := by
  unfold nextRadius clip
  push_cast
  rcases h with ⟨rfl, h1, h2⟩ | ⟨h1, rfl⟩ | ⟨h1, rfl⟩
  · rw [max_eq_left h1, min_eq_left h2]
  · rw [max_eq_left (by linarith), min_eq_right h1]
  · rw [max_eq_right h1, min_eq_left (by norm_num)]

theorem sixRad_up {t : ℝ} (h1 : 1 / 2 < t) (h2 : t ≤ 2 / 3) (l : Fin 6) :
    nextRadius 2 t (sixRad t l) 1 = sixRad t (sixUp l) := by
  refine nextRadius_two ?_
  fin_cases l <;> simp [sixRad, sixUp]
  · left; refine ⟨?_, ?_, ?_⟩ <;> linarith
  · left; refine ⟨?_, ?_, ?_⟩ <;> linarith
  · right; linarith
  · right; linarith
  · left; linarith
  · left; refine ⟨?_, ?_, ?_⟩ <;> linarith

theorem sixRad_dn {t : ℝ} (h1 : 1 / 2 < t) (h2 : t ≤ 2 / 3) (l : Fin 6) :
    nextRadius 2 t (sixRad t l) (2 * t - 1) = sixRad t (sixDn l) := by
  refine nextRadius_two ?_
  fin_cases l <;> simp [sixRad, sixDn]
  · right; linarith
  · right; linarith
  · left; refine ⟨?_, ?_, ?_⟩ <;> linarith
  · left; refine ⟨?_, ?_, ?_⟩ <;> linarith
  · left; refine ⟨?_, ?_, ?_⟩ <;> linarith
  · right; linarith

theorem sixRad_flips {t : ℝ} (h1 : 1 / 2 < t) (h2 : t ≤ 2 / 3) (l : Fin 6) :
    numFlips 2 (sixRad t l) = (![1, 1, 2, 2, 2, 1] : Fin 6 → ℕ) l := by
  have h22 : numFlips 2 (2 : ℝ) = 2 := by
    unfold numFlips roundHalfEven; norm_num [Int.floor_ofNat]; rfl
  fin_cases l
  · exact numFlips_one (by norm_num) (by norm_num [sixRad]) (by norm_num [sixRad])
  · refine numFlips_one (by norm_num) ?_ ?_ <;> simp [sixRad] <;> linarith
  · refine numFlips_two (by norm_num) ?_ ?_ <;> simp [sixRad] <;> linarith
  · exact h22
  · refine numFlips_two (by norm_num) ?_ ?_ <;> simp [sixRad] <;> linarith
  · refine numFlips_one (by norm_num) ?_ ?_ <;> simp [sixRad] <;> linarith

theorem acceptProb_log {ρ tiny : ℝ} (h0 : 0 < ρ) (h1 : ρ ≤ 1) (ht : 0 ≤ tiny) :
    |acceptProb tiny (Real.log ρ) - ρ| ≤ tiny ∧ |acceptProb tiny (-Real.log ρ) - 1| ≤ tiny := by
  have e0 := acceptProb_close ht (Real.log ρ)
  have e1 := acceptProb_close ht (-Real.log ρ)
  have hlog : Real.log ρ ≤ 0 := Real.log_nonpos h0.le h1
  rw [acceptProb_zero, Real.exp_log h0, min_eq_right h1] at e0
  rw [acceptProb_zero, min_eq_left (by rw [Real.exp_neg, Real.exp_log h0]; exact (one_le_inv₀ h0).2 h1)] at e1
  exact ⟨e0, e1⟩

/-- Shares of time of a two-number process with the six radii. -/
theorem six_average {t tiny m : ℝ} (h1 : 1 / 2 < t) (h2 : t ≤ 2 / 3) (ht : 0 ≤ tiny) {Q : ℝ → ℝ} {p q : ℝ}
    (hp : 0 ≤ p ∧ p ≤ 1) (hq : 0 ≤ q ∧ q ≤ 1)
    (hQ : ∀ l, Q (sixRad t l) = (![p, p, q, q, q, p] : Fin 6 → ℝ) l) {h : Fin 6 → Bool → ℝ}
    (hh : ∀ l v, 0 ≤ h l v ∧ h l v ≤ 2)
    (hres : ∀ l v, (if v then 1 else 0) + siteOp (2 * t - 1) 1 ![p, p, q, q, q, p] sixUp sixDn h l v =
      h l v + m) (n : ℕ) (v : Bool) :
    |∑ k ∈ range n, siteRun (2 * t - 1) (acceptProb tiny (Real.log (2 * t - 1)))
      (acceptProb tiny (-Real.log (2 * t - 1))) Q (nextRadius 2 t) k 1 v - n * m| ≤ n * (tiny * 2) + 2 := by
  obtain ⟨hb, hc⟩ := acceptProb_log (ρ := 2 * t - 1) (by linarith) (by linarith) ht
  have hPv : ∀ l, 0 ≤ (![p, p, q, q, q, p] : Fin 6 → ℝ) l ∧ (![p, p, q, q, q, p] : Fin 6 → ℝ) l ≤ 1 := by
    intro l; fin_cases l <;> first | exact hp | exact hq
  have hQ' : (fun l => Q (sixRad t l)) = ![p, p, q, q, q, p] := funext hQ
  refine siteRun_average (sixRad t) (sixRad_up h1 h2) (sixRad_dn h1 h2)
    ⟨acceptProb_nonneg _ _, acceptProb_le_one _ _⟩ ⟨acceptProb_nonneg _ _, acceptProb_le_one _ _⟩
    (fun l => by rw [hQ]; exact hPv l) hh (fun l v => ?_) n 0 v
  have hcl := siteOp_close (up := sixUp) (dn := sixDn) hb hc hPv hh l v
  rw [hQ']
  have e := hres l v
  calc _ = |siteOp (acceptProb tiny (Real.log (2 * t - 1))) (acceptProb tiny (-Real.log (2 * t - 1)))
          ![p, p, q, q, q, p] sixUp sixDn h l v -
        siteOp (2 * t - 1) 1 ![p, p, q, q, q, p] sixUp sixDn h l v| := by congr 1; linarith
    _ ≤ _ := hcl

/-! ## Path-auxiliary sampler -/

/-- Limit of the share of time of the site, path-auxiliary sampler. -/
noncomputable def pafsShare (ρ : ℝ) : ℝ :=
  (10 - 12 * ρ + 5 * ρ ^ 2) / (10 - 2 * ρ - 4 * ρ ^ 2 + 2 * ρ ^ 3)

/-- Solution of Poisson's equation. -/
noncomputable def pafsPoisson (ρ : ℝ) : Fin 6 → Bool → ℝ := fun l v =>
  (if v then ![35 - 32 * ρ + 8 * ρ ^ 2, 35 - 37 * ρ + 12 * ρ ^ 2, 35 - 47 * ρ + 20 * ρ ^ 2,
      35 - 47 * ρ + 26 * ρ ^ 2, 35 - 47 * ρ + 20 * ρ ^ 2, 35 - 37 * ρ + 12 * ρ ^ 2] l
    else ![0, 5 - 11 * ρ + 8 * ρ ^ 2, 15 - 23 * ρ + 16 * ρ ^ 2, 15 - 23 * ρ + 16 * ρ ^ 2,
      15 - 23 * ρ + 16 * ρ ^ 2, 5 - 11 * ρ + 8 * ρ ^ 2] l) / (20 - 4 * ρ - 8 * ρ ^ 2 + 4 * ρ ^ 3)

theorem pafsPoisson_bounds {ρ : ℝ} (h0 : 0 < ρ) (h1 : ρ ≤ 1 / 3) (l : Fin 6) (v : Bool) :
    0 ≤ pafsPoisson ρ l v ∧ pafsPoisson ρ l v ≤ 2 := by
  have hd : (35 : ℝ) / 2 ≤ 20 - 4 * ρ - 8 * ρ ^ 2 + 4 * ρ ^ 3 := by nlinarith [pow_pos h0 3]
  have hd0 : 0 < 20 - 4 * ρ - 8 * ρ ^ 2 + 4 * ρ ^ 3 := by linarith
  unfold pafsPoisson
  constructor
  · refine div_nonneg ?_ hd0.le
    fin_cases l <;> cases v <;> simp <;> nlinarith [sq_nonneg ρ]
  · rw [div_le_iff₀ hd0]
    refine le_trans ?_ (mul_le_mul_of_nonneg_left hd (by norm_num : (0 : ℝ) ≤ 2))
    fin_cases l <;> cases v <;> simp <;> nlinarith [sq_nonneg ρ]

theorem pafsPoisson_eq {ρ : ℝ} (h0 : 0 < ρ) (h1 : ρ ≤ 1 / 3) (l : Fin 6) (v : Bool) :
    (if v then 1 else 0) + siteOp ρ 1 ![1 / 2, 1 / 2, 1, 1, 1, 1 / 2] sixUp sixDn (pafsPoisson ρ) l v =
      pafsPoisson ρ l v + pafsShare ρ := by
  have hd : (0 : ℝ) < 10 - 2 * ρ - 4 * ρ ^ 2 + 2 * ρ ^ 3 := by nlinarith [pow_pos h0 3]
  have e : pafsShare ρ = (20 - 24 * ρ + 10 * ρ ^ 2) / (20 - 4 * ρ - 8 * ρ ^ 2 + 4 * ρ ^ 3) := by
    unfold pafsShare
    rw [div_eq_div_iff hd.ne' (by linarith)]; ring
  have hd' : 20 - 4 * ρ - 8 * ρ ^ 2 + 4 * ρ ^ 3 ≠ 0 := by linarith
  have hk := mul_inv_cancel₀ hd'
  rw [e]
  fin_cases l <;> cases v <;> simp [siteOp, sixUp, sixDn, pafsPoisson, div_eq_mul_inv] <;>
    first | ring1 | linear_combination (-1) * hk

theorem pafsShare_bias {ρ : ℝ} (h0 : 0 < ρ) (h1 : ρ ≤ 1 / 3) :
    1 / (1 + ρ) - pafsShare ρ = 3 * ρ ^ 2 * (1 - ρ) / ((1 + ρ) * (10 - 2 * ρ - 4 * ρ ^ 2 + 2 * ρ ^ 3)) := by
  have hd : (0 : ℝ) < 10 - 2 * ρ - 4 * ρ ^ 2 + 2 * ρ ^ 3 := by nlinarith [pow_pos h0 3]
  have hr : 0 < 1 + ρ := by linarith
  unfold pafsShare
  rw [div_sub_div _ _ hr.ne' hd.ne']
  congr 1
  ring

/-- **C90 (exact limit, adaptive path-auxiliary sampler).** Two sites, requested rate `t` in `(1/2, 2/3]`
(configured: 0.574), the model that gives weight `2t - 1` to the samples without a one at site `i`: the
expected time the site is 1 during the first `n` steps is `n * pafsShare (2t - 1)`, up to a constant and the
offset of the acceptance test. -/
theorem pafsAdaptive_average {t tiny : ℝ} (h1 : 1 / 2 < t) (h2 : t ≤ 2 / 3) (ht : 0 ≤ tiny) (h : ℝ → ℝ)
    (i : Fin 2) (n : ℕ) {x : Fin 2 → ℤ} (hx : x ∈ validStates 2 2) :
    |∑ k ∈ range n, adaptiveExpect (pafsLaws h fun _ _ => 0)
        (pafsMove t tiny h (siteModel (2 * t - 1) i) fun _ _ => 0) (fun x => if x i = 1 then 1 else 0) k
        (pafsInit 1) x - n * pafsShare (2 * t - 1)| ≤ n * (tiny * 2) + 2 := by
  have e : ∀ k ∈ range n, adaptiveExpect (pafsLaws h fun _ _ => 0)
        (pafsMove t tiny h (siteModel (2 * t - 1) i) fun _ _ => 0) (fun x => if x i = 1 then 1 else 0) k
        (pafsInit 1) x = siteRun (2 * t - 1) (acceptProb tiny (Real.log (2 * t - 1)))
      (acceptProb tiny (-Real.log (2 * t - 1))) (pafsFlipProb 2) (nextRadius 2 t) k 1 (decide (x i = 1)) := by
    intro k _
    rw [pafsAdaptive_site (by norm_num) t ht h (by linarith) (by linarith) i k (pafsInit 1) hx]
    simp [pafsInit]
  rw [Finset.sum_congr rfl e]
  refine six_average h1 h2 ht (p := 1 / 2) (q := 1) (by norm_num) (by norm_num) (fun l => ?_)
    (pafsPoisson_bounds (ρ := 2 * t - 1) (by linarith) (by linarith))
    (pafsPoisson_eq (by linarith) (by linarith)) n _
  unfold pafsFlipProb
  rw [sixRad_flips h1 h2]
  fin_cases l <;> norm_num

/-! ## Gibbs with gradients -/

/-- Limit of the share of time of the site, adaptive GWG. -/
noncomputable def gwgShare (ρ : ℝ) : ℝ :=
  (52 - 40 * ρ + 18 * ρ ^ 2) / (52 + 12 * ρ - 13 * ρ ^ 2 + 9 * ρ ^ 3)

/-- Solution of Poisson's equation. -/
noncomputable def gwgPoisson (ρ : ℝ) : Fin 6 → Bool → ℝ := fun l v =>
  (if v then ![286 - 168 * ρ + 54 * ρ ^ 2, 286 - 194 * ρ + 72 * ρ ^ 2, 286 - 246 * ρ + 108 * ρ ^ 2,
      286 - 246 * ρ + 144 * ρ ^ 2, 286 - 246 * ρ + 108 * ρ ^ 2, 286 - 194 * ρ + 72 * ρ ^ 2] l
    else ![0, 26 - 46 * ρ + 36 * ρ ^ 2, 78 - 86 * ρ + 72 * ρ ^ 2, 78 - 86 * ρ + 72 * ρ ^ 2,
      78 - 86 * ρ + 72 * ρ ^ 2, 26 - 46 * ρ + 36 * ρ ^ 2] l) / (156 + 36 * ρ - 39 * ρ ^ 2 + 27 * ρ ^ 3)

theorem gwgPoisson_bounds {ρ : ℝ} (h0 : 0 < ρ) (h1 : ρ ≤ 1 / 3) (l : Fin 6) (v : Bool) :
    0 ≤ gwgPoisson ρ l v ∧ gwgPoisson ρ l v ≤ 2 := by
  have hd : (156 : ℝ) ≤ 156 + 36 * ρ - 39 * ρ ^ 2 + 27 * ρ ^ 3 := by nlinarith [pow_pos h0 3]
  have hd0 : 0 < 156 + 36 * ρ - 39 * ρ ^ 2 + 27 * ρ ^ 3 := by linarith
  unfold gwgPoisson
  constructor
  · refine div_nonneg ?_ hd0.le
    fin_cases l <;> cases v <;> simp <;> nlinarith [sq_nonneg ρ]
  · rw [div_le_iff₀ hd0]
    refine le_trans ?_ (mul_le_mul_of_nonneg_left hd (by norm_num : (0 : ℝ) ≤ 2))
    fin_cases l <;> cases v <;> simp <;> nlinarith [sq_nonneg ρ]

theorem gwgPoisson_eq {ρ : ℝ} (h0 : 0 < ρ) (h1 : ρ ≤ 1 / 3) (l : Fin 6) (v : Bool) :
    (if v then 1 else 0) + siteOp ρ 1 ![1 / 2, 1 / 2, 3 / 4, 3 / 4, 3 / 4, 1 / 2] sixUp sixDn
      (gwgPoisson ρ) l v = gwgPoisson ρ l v + gwgShare ρ := by
  have hd : (0 : ℝ) < 52 + 12 * ρ - 13 * ρ ^ 2 + 9 * ρ ^ 3 := by nlinarith [pow_pos h0 3]
  have e : gwgShare ρ = (156 - 120 * ρ + 54 * ρ ^ 2) / (156 + 36 * ρ - 39 * ρ ^ 2 + 27 * ρ ^ 3) := by
    unfold gwgShare
    rw [div_eq_div_iff hd.ne' (by linarith)]; ring
  have hd' : 156 + 36 * ρ - 39 * ρ ^ 2 + 27 * ρ ^ 3 ≠ 0 := by linarith
  have hk := mul_inv_cancel₀ hd'
  rw [e]
  fin_cases l <;> cases v <;> simp [siteOp, sixUp, sixDn, gwgPoisson, div_eq_mul_inv] <;>
    first | ring1 | linear_combination (-1) * hk

theorem gwgShare_bias {ρ : ℝ} (h0 : 0 < ρ) (h1 : ρ ≤ 1 / 3) :
    1 / (1 + ρ) - gwgShare ρ = 9 * ρ ^ 2 * (1 - ρ) / ((1 + ρ) * (52 + 12 * ρ - 13 * ρ ^ 2 + 9 * ρ ^ 3)) := by
  have hd : (0 : ℝ) < 52 + 12 * ρ - 13 * ρ ^ 2 + 9 * ρ ^ 3 := by nlinarith [pow_pos h0 3]
  have hr : 0 < 1 + ρ := by linarith
  unfold gwgShare
  rw [div_sub_div _ _ hr.ne' hd.ne']
  congr 1
  ring

/-- **C90 (exact limit, adaptive GWG).** The same for Gibbs with gradients. -/
theorem gwgAdaptive_average {t tiny : ℝ} (h1 : 1 / 2 < t) (h2 : t ≤ 2 / 3) (ht : 0 ≤ tiny) (h : ℝ → ℝ)
    (i : Fin 2) (n : ℕ) {x : Fin 2 → ℤ} (hx : x ∈ validStates 2 2) :
    |∑ k ∈ range n, adaptiveExpect (gwgLaws h fun _ _ => 0)
        (gwgMove (by norm_num) t tiny h (siteModel (2 * t - 1) i) fun _ _ => 0)
        (fun x => if x i = 1 then 1 else 0) k gwgAdaptiveInit x - n * gwgShare (2 * t - 1)| ≤
      n * (tiny * 2) + 2 := by
  have e : ∀ k ∈ range n, adaptiveExpect (gwgLaws h fun _ _ => 0)
        (gwgMove (by norm_num) t tiny h (siteModel (2 * t - 1) i) fun _ _ => 0)
        (fun x => if x i = 1 then 1 else 0) k gwgAdaptiveInit x =
      siteRun (2 * t - 1) (acceptProb tiny (Real.log (2 * t - 1)))
      (acceptProb tiny (-Real.log (2 * t - 1))) (gwgFlipProb 2) (nextRadius 2 t) k 1 (decide (x i = 1)) := by
    intro k _
    exact gwgAdaptive_site (by norm_num) t ht h (by linarith) (by linarith) i k gwgAdaptiveInit hx
  rw [Finset.sum_congr rfl e]
  refine six_average h1 h2 ht (p := 1 / 2) (q := 3 / 4) (by norm_num) (by norm_num) (fun l => ?_)
    (gwgPoisson_bounds (ρ := 2 * t - 1) (by linarith) (by linarith))
    (gwgPoisson_eq (by linarith) (by linarith)) n _
  unfold gwgFlipProb
  rw [sixRad_flips h1 h2]
  fin_cases l <;> norm_num

/-! ## Random walk -/

/-- What a step of the adaptive random walk does to one site. -/
theorem rw_siteSampler {D : ℕ} (t tiny : ℝ) (f : (Fin D → ℤ) → ℝ) (i : Fin D) :
    SiteSampler (Ω := fun _ : RWState => RWDraw 2 D) tiny f i (rwLaws 2) (rwMove true t tiny f 2) RWState.radius
      (fun _ d => d.1 i) (fun r => r / D) (nextRadius D t) (fun _ x d => rwPropose x d) := by
  constructor
  · intro s x _ G
    exact sum_rwDrawLaw_site s.radius i G
  · intro s x hx d
    refine mem_validStates.2 fun j => ?_
    rw [rwPropose_two x hx d j]
    rcases valid_two hx j with h | h <;> rw [h] <;> split_ifs <;> norm_num
  · intro s x hx d; exact rwPropose_two x hx d i
  · intro s x _ d u h; exact rwMove_accept h
  · intro s x _ d u h; exact rwMove_reject h
  · intro s x _ d u; exact rwMove_radius t tiny f 2 s x d u

/-- On `siteModel` the adaptive random walk is the two-number process with flip probability `radius / D`. -/
theorem rwAdaptive_site {D : ℕ} (t : ℝ) {tiny : ℝ} (ht : 0 ≤ tiny) {ρ : ℝ} (h0 : 0 < ρ) (h1 : ρ ≤ 1)
    (i : Fin D) (n : ℕ) (s : RWState) {x : Fin D → ℤ} (hx : x ∈ validStates 2 D) :
    adaptiveExpect (rwLaws 2) (rwMove true t tiny (siteModel ρ i) 2) (fun x => if x i = 1 then 1 else 0) n s x =
      siteRun ρ (acceptProb tiny (Real.log ρ)) (acceptProb tiny (-Real.log ρ)) (fun r => r / D)
        (nextRadius D t) n s.radius (decide (x i = 1)) := by
  exact adaptiveExpect_site ht h0 h1 (rw_siteSampler t tiny (siteModel ρ i) i) n s x hx

/-- Radii reached from 1 on two sites at the default rate 0.237, weight `0.04625`: an accepted flip raises
the radius four times as much as the other ones lower it. -/
noncomputable def twelveRad : Fin 12 → ℝ :=
  ![1, 1.04625, 1.19075, 1.237, 1.3815, 1.42775, 1.57225, 1.6185, 1.763, 1.80925, 1.95375, 2]

def twelveUp : Fin 12 → Fin 12 := ![8, 9, 10, 11, 11, 11, 11, 11, 11, 11, 11, 11]
def twelveDn : Fin 12 → Fin 12 := ![0, 0, 0, 1, 2, 3, 4, 5, 6, 7, 8, 9]

theorem twelveRad_up (l : Fin 12) : nextRadius 2 0.237 (twelveRad l) 1 = twelveRad (twelveUp l) := by
  refine nextRadius_two ?_
  fin_cases l <;> simp [twelveRad, twelveUp] <;> norm_num

theorem twelveRad_dn (l : Fin 12) : nextRadius 2 0.237 (twelveRad l) 0.04625 = twelveRad (twelveDn l) := by
  refine nextRadius_two ?_
  fin_cases l <;> simp [twelveRad, twelveDn] <;> norm_num

/-- Approximate solution of Poisson's equation. -/
noncomputable def rwPoisson : Fin 12 → Bool → ℝ := fun l v =>
  if v then ![1.511478, 1.509846, 1.505035, 1.503634, 1.50043, 1.499431, 1.49626, 1.495269, 1.492154,
    1.491182, 1.488152, 1.487213] l
  else ![0, 0.034853, 0.136875, 0.16735, 0.236376, 0.258469, 0.327496, 0.349589, 0.418616, 0.440709,
    0.509736, 0.531829] l

theorem rwPoisson_bounds (l : Fin 12) (v : Bool) : 0 ≤ rwPoisson l v ∧ rwPoisson l v ≤ 2 := by
  fin_cases l <;> cases v <;> norm_num [rwPoisson]

theorem rwPoisson_eq (l : Fin 12) (v : Bool) :
    |(if v then 1 else 0) + siteOp 0.04625 1 (fun l => twelveRad l / 2) twelveUp twelveDn rwPoisson l v -
      rwPoisson l v - 0.955385| ≤ 2e-6 := by
  rw [abs_le]
  fin_cases l <;> cases v <;> simp [rwPoisson, siteOp, twelveUp, twelveDn, twelveRad] <;> norm_num

/-- **C90 (random walk as configured).** Two sites, default rate and offset: the expected time at the likelier
value is `0.955385 n` up to `10⁻⁵ n` and a constant. -/
theorem rwAdaptive_average (i : Fin 2) (n : ℕ) {x : Fin 2 → ℤ} (hx : x ∈ validStates 2 2) :
    |∑ k ∈ range n, adaptiveExpect (rwLaws 2) (rwMove true 0.237 mhTiny (siteModel 0.04625 i) 2)
      (fun x => if x i = 1 then 1 else 0) k rwInit x - n * 0.955385| ≤ n * 1e-5 + 2 := by
  have e : ∀ k ∈ range n, adaptiveExpect (rwLaws 2) (rwMove true 0.237 mhTiny (siteModel 0.04625 i) 2)
      (fun x => if x i = 1 then 1 else 0) k rwInit x =
      siteRun 0.04625 (acceptProb mhTiny (Real.log 0.04625)) (acceptProb mhTiny (-Real.log 0.04625))
        (fun r => r / (2 : ℕ)) (nextRadius 2 0.237) k (twelveRad 0) (decide (x i = 1)) := by
    intro k _
    exact rwAdaptive_site 0.237 mhTiny_nonneg (by norm_num) (by norm_num) i k rwInit hx
  rw [Finset.sum_congr rfl e]
  obtain ⟨hb, hc⟩ := acceptProb_log (ρ := 0.04625) (by norm_num) (by norm_num) mhTiny_nonneg
  have hP : ∀ l, 0 ≤ twelveRad l / (2 : ℕ) ∧ twelveRad l / (2 : ℕ) ≤ 1 := by
    intro l; fin_cases l <;> norm_num [twelveRad]
  refine siteRun_average twelveRad twelveRad_up twelveRad_dn
    ⟨acceptProb_nonneg _ _, acceptProb_le_one _ _⟩ ⟨acceptProb_nonneg _ _, acceptProb_le_one _ _⟩ hP
    rwPoisson_bounds (fun l v => ?_) n 0 _
  have hcl := abs_le.1 (siteOp_close (up := twelveUp) (dn := twelveDn) hb hc hP rwPoisson_bounds l v)
  have hr := abs_le.1 (rwPoisson_eq l v)
  have ht : mhTiny * 2 ≤ 1e-6 := by unfold mhTiny; norm_num
  push_cast at hcl ⊢
  rw [abs_le]
  norm_num at hr ht ⊢
  constructor <;> linarith [hcl.1, hcl.2, hr.1, hr.2]

/-! ## Refutation -/

theorem siteModel_mean {D : ℕ} {ρ : ℝ} (h0 : 0 < ρ) (i : Fin D) :
    (∑ x ∈ validStates 2 D, Real.exp (siteModel ρ i x) * (if x i = 1 then 1 else 0)) /
      ∑ x ∈ validStates 2 D, Real.exp (siteModel ρ i x) = 1 / (1 + ρ) := by
  have h1 := sum_siteModel h0 i (fun x => if x i = 1 then 1 else 0) 1 0 fun _ _ => rfl
  have h2 := sum_siteModel h0 i (fun _ => 1) 1 1 fun _ _ => by split_ifs <;> rfl
  simp only [mul_one] at h2
  have hN : (0 : ℝ) < ((validStates 2 D).filter fun x => x i = 1).card := by
    rw [Nat.cast_pos, Finset.card_pos]
    exact ⟨fun _ => 1, by rw [Finset.mem_filter, mem_validStates]; exact ⟨fun j => by simp, rfl⟩⟩
  rw [h1, h2, mul_zero, add_zero, mul_div_mul_left _ _ hN.ne']

/-- A run whose expected times are `n m`, up to `n e` and a constant, does not estimate `T > m + e`. -/
theorem not_estimate {St : Type*} {Ω : St → Type*} [∀ s, Fintype (Ω s)] {D : ℕ} {ρ : ℝ} (h0 : 0 < ρ)
    (i : Fin D) {p : ∀ s, (Fin D → ℤ) → Ω s → ℝ} {step : ∀ s, (Fin D → ℤ) → Ω s → ℝ → (Fin D → ℤ) × St}
    {s₀ : St} {m e : ℝ} (hm : m + e < 1 / (1 + ρ))
    (h : ∀ (n : ℕ) (x : Fin D → ℤ), x ∈ validStates 2 D →
      |∑ k ∈ range n, adaptiveExpect p step (fun x => if x i = 1 then 1 else 0) k s₀ x - n * m| ≤ n * e + 2) :
    ¬ AveragesEstimate (validStates 2 D) (fun x => Real.exp (siteModel ρ i x)) p step s₀ := by
  intro hest
  have hx : (fun _ => 0 : Fin D → ℤ) ∈ validStates 2 D := mem_validStates.2 fun j => by norm_num
  have hlim := hest (fun x => if x i = 1 then 1 else 0) _ hx
  rw [siteModel_mean h0] at hlim
  have h2 : Tendsto (fun n : ℕ => m + e + 2 / (n : ℝ)) atTop (nhds (m + e + 0)) :=
    tendsto_const_nhds.add (tendsto_const_div_atTop_nhds_zero_nat 2)
  rw [add_zero] at h2
  refine absurd (le_of_tendsto_of_tendsto hlim h2 ?_) (not_le.2 hm)
  filter_upwards [eventually_gt_atTop 0] with n hn
  have hn' : (0 : ℝ) < n := by exact_mod_cast hn
  have := (abs_le.1 (h n _ hx)).2
  unfold adaptiveAverage
  rw [div_le_iff₀ hn', add_mul, div_mul_cancel₀ _ hn'.ne']
  linarith

/-- **C90 (refuted, path-auxiliary sampler).** -/
theorem pafsAdaptive_not_estimate {t tiny : ℝ} (h1 : 1 / 2 < t) (h2 : t ≤ 2 / 3) (ht : 0 ≤ tiny)
    (hs : 25 * tiny < (2 * t - 1) ^ 2) (h : ℝ → ℝ) (i : Fin 2) :
    ¬ AveragesEstimate (validStates 2 2) (fun x => Real.exp (siteModel (2 * t - 1) i x))
      (pafsLaws h fun _ _ => 0) (pafsMove t tiny h (siteModel (2 * t - 1) i) fun _ _ => 0) (pafsInit 1) := by
  refine not_estimate (by linarith) i (m := pafsShare (2 * t - 1)) (e := tiny * 2) ?_
    fun n x hx => pafsAdaptive_average h1 h2 ht h i n hx
  obtain ⟨ρ, hρ⟩ : ∃ ρ, 2 * t - 1 = ρ := ⟨_, rfl⟩
  rw [hρ] at hs ⊢
  have hρ0 : 0 < ρ := by linarith
  have hρ1 : ρ ≤ 1 / 3 := by linarith
  have hb := pafsShare_bias hρ0 hρ1
  have hd : (0 : ℝ) < 10 - 2 * ρ - 4 * ρ ^ 2 + 2 * ρ ^ 3 := by nlinarith [pow_pos hρ0 3]
  have hd2 : 10 - 2 * ρ - 4 * ρ ^ 2 + 2 * ρ ^ 3 ≤ 10 := by nlinarith [sq_nonneg ρ]
  have key : ρ ^ 2 * (2 / 25) ≤ 3 * ρ ^ 2 * (1 - ρ) / ((1 + ρ) * (10 - 2 * ρ - 4 * ρ ^ 2 + 2 * ρ ^ 3)) := by
    rw [le_div_iff₀ (by positivity)]
    have e1 : (1 + ρ) * (10 - 2 * ρ - 4 * ρ ^ 2 + 2 * ρ ^ 3) ≤ 4 / 3 * 10 :=
      mul_le_mul (by linarith) hd2 hd.le (by norm_num)
    have e2 := mul_le_mul_of_nonneg_left e1 (sq_nonneg ρ)
    have e3 := mul_le_mul_of_nonneg_left hρ1 (sq_nonneg ρ)
    linarith
  linarith

/-- **C90 (refuted, adaptive GWG).** -/
theorem gwgAdaptive_not_estimate {t tiny : ℝ} (h1 : 1 / 2 < t) (h2 : t ≤ 2 / 3) (ht : 0 ≤ tiny)
    (hs : 25 * tiny < (2 * t - 1) ^ 2) (h : ℝ → ℝ) (i : Fin 2) :
    ¬ AveragesEstimate (validStates 2 2) (fun x => Real.exp (siteModel (2 * t - 1) i x))
      (gwgLaws h fun _ _ => 0)
      (gwgMove (by norm_num) t tiny h (siteModel (2 * t - 1) i) fun _ _ => 0) gwgAdaptiveInit := by
  refine not_estimate (by linarith) i (m := gwgShare (2 * t - 1)) (e := tiny * 2) ?_
    fun n x hx => gwgAdaptive_average h1 h2 ht h i n hx
  obtain ⟨ρ, hρ⟩ : ∃ ρ, 2 * t - 1 = ρ := ⟨_, rfl⟩
  rw [hρ] at hs ⊢
  have hρ0 : 0 < ρ := by linarith
  have hρ1 : ρ ≤ 1 / 3 := by linarith
  have hb := gwgShare_bias hρ0 hρ1
  have h3 : ρ ^ 3 ≤ ρ ^ 2 := by nlinarith [sq_nonneg ρ]
  have hd : (0 : ℝ) < 52 + 12 * ρ - 13 * ρ ^ 2 + 9 * ρ ^ 3 := by nlinarith [pow_pos hρ0 3]
  have hd2 : 52 + 12 * ρ - 13 * ρ ^ 2 + 9 * ρ ^ 3 ≤ 56 := by nlinarith [sq_nonneg ρ]
  have key : ρ ^ 2 * (2 / 25) ≤ 9 * ρ ^ 2 * (1 - ρ) / ((1 + ρ) * (52 + 12 * ρ - 13 * ρ ^ 2 + 9 * ρ ^ 3)) := by
    rw [le_div_iff₀ (by positivity)]
    have e1 : (1 + ρ) * (52 + 12 * ρ - 13 * ρ ^ 2 + 9 * ρ ^ 3) ≤ 4 / 3 * 56 :=
      mul_le_mul (by linarith) hd2 hd.le (by norm_num)
    have e2 := mul_le_mul_of_nonneg_left e1 (sq_nonneg ρ)
    have e3 := mul_le_mul_of_nonneg_left hρ1 (sq_nonneg ρ)
    linarith
  linarith

/-- **C90 (refuted, random walk as configured).** -/
theorem rwAdaptive_not_estimate (i : Fin 2) :
    ¬ AveragesEstimate (validStates 2 2) (fun x => Real.exp (siteModel 0.04625 i x)) (rwLaws 2)
      (rwMove true 0.237 mhTiny (siteModel 0.04625 i) 2) rwInit :=
  not_estimate (by norm_num) i (m := 0.955385) (e := 1e-5) (by norm_num)
    fun n _ hx => rwAdaptive_average i n hx

/-- Instances: the configured rate of GWG and the path-auxiliary sampler with the code's offset. -/
example (h : ℝ → ℝ) (i : Fin 2) :
    ¬ AveragesEstimate (validStates 2 2) (fun x => Real.exp (siteModel (2 * 0.574 - 1) i x))
      (pafsLaws h fun _ _ => 0)
      (pafsMove 0.574 mhTiny h (siteModel (2 * 0.574 - 1) i) fun _ _ => 0) (pafsInit 1) :=
  pafsAdaptive_not_estimate (by norm_num) (by norm_num) mhTiny_nonneg (by unfold mhTiny; norm_num) h i

example (h : ℝ → ℝ) (i : Fin 2) :
    ¬ AveragesEstimate (validStates 2 2) (fun x => Real.exp (siteModel (2 * 0.574 - 1) i x))
      (gwgLaws h fun _ _ => 0)
      (gwgMove (by norm_num) 0.574 mhTiny h (siteModel (2 * 0.574 - 1) i) fun _ _ => 0) gwgAdaptiveInit :=
  gwgAdaptive_not_estimate (by norm_num) (by norm_num) mhTiny_nonneg (by unfold mhTiny; norm_num) h i

end Discs
