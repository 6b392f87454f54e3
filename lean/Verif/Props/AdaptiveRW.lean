import Verif.Lemmas.Adaptive
import Verif.Props.RandomWalk

/-!
# Property C88: adaptive samplers keep the target while they adapt (random walk)

Every single step preserves the target at the radius it uses (C03).  The radius of the next step is
computed from the acceptance ratio of this one, so it carries information about the current sample.
-/

namespace Discs

open Finset Spec

variable {D : ℕ}

/-- Law of the draws of one random-walk step at a state. -/
noncomputable def rwLaws (C : ℕ) (s : RWState) (_x : Fin D → ℤ) : RWDraw C D → ℝ := rwDrawLaw C D s.radius

/-- One step of the random walk: next sample and next state. -/
noncomputable def rwMove (adaptive : Bool) (t tiny : ℝ) (f : (Fin D → ℤ) → ℝ) (C : ℕ) (s : RWState)
    (x : Fin D → ℤ) (d : RWDraw C D) (u : ℝ) : (Fin D → ℤ) × RWState :=
  let r := rwStep adaptive t tiny f C (fun _ : Fin 1 => x) (fun _ => d) (fun _ => u) s
  (r.1 0, r.2.1)

theorem rwMove_accept {adaptive : Bool} {t tiny : ℝ} {f : (Fin D → ℤ) → ℝ} {C : ℕ} {s : RWState}
    {x : Fin D → ℤ} {d : RWDraw C D} {u : ℝ} (h : bernoulliLogp tiny u (f (rwPropose x d) - f x)) :
    (rwMove adaptive t tiny f C s x d u).1 = rwPropose x d := by
  show (rwStep adaptive t tiny f C (fun _ : Fin 1 => x) (fun _ => d) (fun _ => u) s).1 0 = _
  rw [rwStep_fst, mhStep_accept h]

theorem rwMove_reject {adaptive : Bool} {t tiny : ℝ} {f : (Fin D → ℤ) → ℝ} {C : ℕ} {s : RWState}
    {x : Fin D → ℤ} {d : RWDraw C D} {u : ℝ} (h : ¬ bernoulliLogp tiny u (f (rwPropose x d) - f x)) :
    (rwMove adaptive t tiny f C s x d u).1 = x := by
  show (rwStep adaptive t tiny f C (fun _ : Fin 1 => x) (fun _ => d) (fun _ => u) s).1 0 = _
  rw [rwStep_fst, mhStep_reject h]

theorem rwMove_radius (t tiny : ℝ) (f : (Fin D → ℤ) → ℝ) (C : ℕ) (s : RWState) (x : Fin D → ℤ)
    (d : RWDraw C D) (u : ℝ) : (rwMove true t tiny f C s x d u).2.radius =
      clip (s.radius + Real.exp (clipMax (f (rwPropose x d) - f x) 0) - t) 1 D := by
  simp [rwMove, rwStep, rwSelectAdaptive, rwSelect, meanB]

theorem rwMove_radius_fixed (t tiny : ℝ) (f : (Fin D → ℤ) → ℝ) (C : ℕ) (s : RWState) (x : Fin D → ℤ)
    (d : RWDraw C D) (u : ℝ) : (rwMove false t tiny f C s x d u).2.radius = s.radius := rfl

/-! ## Without adaptation -/

/-- The values of a non-adaptive run are those of the iterated kernel at the fixed radius. -/
theorem rw_fixed_expect (t : ℝ) {tiny : ℝ} (ht : 0 ≤ tiny) (f : (Fin D → ℤ) → ℝ) {C : ℕ} (hC : 2 ≤ C)
    (φ : (Fin D → ℤ) → ℝ) (s₀ : RWState) (n : ℕ) :
    ∀ s : RWState, s.radius = s₀.radius → ∀ x ∈ validStates C D,
      adaptiveExpect (rwLaws C) (rwMove false t tiny f C) φ n s x =
        adaptiveExpect (rwLaws C) (rwMove false t tiny f C) φ n s₀ x ∧
      adaptiveExpect (rwLaws C) (rwMove false t tiny f C) φ (n + 1) s x =
        ∑ y ∈ validStates C D, rwKernel false t tiny f C s₀ x y *
          adaptiveExpect (rwLaws C) (rwMove false t tiny f C) φ n s₀ y := by
  have key : ∀ n, (∀ s : RWState, s.radius = s₀.radius → ∀ x,
      adaptiveExpect (rwLaws C) (rwMove false t tiny f C) φ n s x =
        adaptiveExpect (rwLaws C) (rwMove false t tiny f C) φ n s₀ x) →
      ∀ s : RWState, s.radius = s₀.radius → ∀ x,
      adaptiveExpect (rwLaws C) (rwMove false t tiny f C) φ (n + 1) s x = ∑ d, rwDrawLaw C D s₀.radius d *
        (acceptProb tiny (f (rwPropose x d) - f x) *
            adaptiveExpect (rwLaws C) (rwMove false t tiny f C) φ n s₀ (rwPropose x d) +
          (1 - acceptProb tiny (f (rwPropose x d) - f x)) *
            adaptiveExpect (rwLaws C) (rwMove false t tiny f C) φ n s₀ x) := by
    intro n ih s hs x
    rw [adaptiveExpect_succ (Ω := fun _ : RWState => RWDraw C D) (p := rwLaws C)
      (step := rwMove false t tiny f C) (s := s) (x := x) ht (m := fun d => rwPropose x d)
      (l := fun d => f (rwPropose x d) - f x)
      (F := fun _ y => adaptiveExpect (rwLaws C) (rwMove false t tiny f C) φ n s₀ y)
      (fun d u h => rwMove_accept h) (fun d u h => rwMove_reject h)
      (fun d u y => ih _ ((rwMove_radius_fixed t tiny f C s x d u).trans hs) y)]
    unfold rwLaws
    rw [hs]
  have hview : ∀ n, ∀ s : RWState, s.radius = s₀.radius → ∀ x,
      adaptiveExpect (rwLaws C) (rwMove false t tiny f C) φ n s x =
        adaptiveExpect (rwLaws C) (rwMove false t tiny f C) φ n s₀ x := by
    intro n
    induction n with
    | zero => intro s _ x; rfl
    | succ n ih => intro s hs x; rw [key n ih s hs x, key n ih s₀ rfl x]
  intro s hs x hx
  refine ⟨hview n s hs x, ?_⟩
  rw [key n (hview n) s hs x]
  have hl : ∀ y, rwKernel false t tiny f C s₀ x y = _ := fun y =>
    (rw_isMH false t tiny f C s₀).lawU_eq ht (fun _ => rwDrawLaw C D s₀.radius) x hx y
  set V := adaptiveExpect (rwLaws C) (rwMove false t tiny f C) φ n s₀
  have hr : ∑ y ∈ validStates C D, rwKernel false t tiny f C s₀ x y * V y = ∑ y ∈ validStates C D,
      ∑ d, rwDrawLaw C D s₀.radius d *
        ((if rwPropose x d = y then acceptProb tiny (f (rwPropose x d) - f x) else 0) +
          (if x = y then 1 - acceptProb tiny (f (rwPropose x d) - f x) else 0)) * V y :=
    Finset.sum_congr rfl fun y _ => by rw [hl y, mhKernel, Finset.sum_mul]
  rw [hr, Finset.sum_comm]
  refine Finset.sum_congr rfl fun d _ => ?_
  have hy := rwPropose_valid (by omega : 0 < C) x d
  have e : ∀ y, rwDrawLaw C D s₀.radius d *
      ((if rwPropose x d = y then acceptProb tiny (f (rwPropose x d) - f x) else 0) +
        (if x = y then 1 - acceptProb tiny (f (rwPropose x d) - f x) else 0)) * V y =
      (if rwPropose x d = y then rwDrawLaw C D s₀.radius d *
        (acceptProb tiny (f (rwPropose x d) - f x) * V y) else 0) +
      (if x = y then rwDrawLaw C D s₀.radius d *
        ((1 - acceptProb tiny (f (rwPropose x d) - f x)) * V y) else 0) := by
    intro y; split_ifs <;> ring
  rw [Finset.sum_congr rfl fun y _ => e y, Finset.sum_add_distrib, Finset.sum_ite_eq, Finset.sum_ite_eq,
    if_pos hy, if_pos hx]
  ring

/-- **C88 (no adaptation).** The random walk with a fixed radius keeps the target exactly (ideal acceptance
test), although its state records the acceptance rate. -/
theorem rw_keeps_target_partial (t : ℝ) (f : (Fin D → ℤ) → ℝ) {C : ℕ} (hC : 2 ≤ C) (s₀ : RWState)
    (h0 : 0 ≤ s₀.radius) (h1 : s₀.radius ≤ D) :
    KeepsTarget (validStates C D) (fun x => Real.exp (f x)) (rwLaws C) (rwMove false t 0 f C) s₀ := by
  intro φ n
  induction n with
  | zero => rfl
  | succ n ih =>
    rw [Finset.sum_congr rfl fun x hx => by
      rw [(rw_fixed_expect t le_rfl f hC φ s₀ n s₀ rfl x hx).2]]
    simp only [Finset.mul_sum]
    rw [Finset.sum_comm, ← ih]
    refine Finset.sum_congr rfl fun y hy => ?_
    have := invariant_of_reversible (rw_reversible false t f hC s₀ h0 h1)
      (rw_stochastic false t le_rfl f hC s₀ h0 h1) y hy
    rw [← this, Finset.sum_mul]
    exact Finset.sum_congr rfl fun x _ => by ring

/-! ## With adaptation -/

/-- Marginal law of one site. -/
theorem sum_rwDrawLaw_site (r : ℝ) (i : Fin D) (G : Bool → ℝ) :
    ∑ d : RWDraw 2 D, rwDrawLaw 2 D r d * G (d.1 i) = r / D * G true + (1 - r / D) * G false := by
  unfold rwDrawLaw
  rw [Fintype.sum_prod_type]
  have hu : (Finset.univ : Finset (Fin D → Fin (2 - 1))) = {fun _ => 0} := by
    ext z; simp only [Finset.mem_univ, Finset.mem_singleton, true_iff]; funext j; exact Fin.eq_zero _
  simp only [hu, Finset.sum_singleton]
  set w : Bool → ℝ := fun b => if b then r / D else 1 - r / D with hw
  have hw1 : w true + w false = 1 := by simp [hw]
  have e : ∀ b : Fin D → Bool, (∏ j, ((if b j then r / D else 1 - r / D) * (1 / ((2 - 1 : ℕ) : ℝ)))) *
      G (b i) = ∏ j, (w (b j) * if j = i then G (b j) else 1) := by
    intro b
    rw [Finset.prod_mul_distrib, Finset.prod_mul_distrib, Finset.prod_ite_eq' Finset.univ i]
    simp [hw]
  rw [Finset.sum_congr rfl fun b _ => e b, ← Fintype.prod_sum
    (fun j (c : Bool) => w c * if j = i then G c else 1), Finset.prod_eq_single i]
  · rw [Fintype.sum_bool]; simp [hw]
  · intro j _ hj
    rw [Fintype.sum_bool]; simp only [if_neg hj, mul_one]; exact hw1
  · intro h; exact absurd (Finset.mem_univ i) h

/-- A model that only looks at site `i`: weight 1 if it is 1, weight `ρ` otherwise. -/
noncomputable def siteModel (ρ : ℝ) (i : Fin D) (x : Fin D → ℤ) : ℝ := if x i = 1 then 0 else Real.log ρ

theorem rwPropose_two (x : Fin D → ℤ) (hx : x ∈ validStates 2 D) (d : RWDraw 2 D) (i : Fin D) :
    rwPropose x d i = if d.1 i then 1 - x i else x i := by
  have hv := (mem_validStates.1 hx) i
  have h2 : ((d.2 i : ℕ) : ℤ) = 0 := by
    have := (d.2 i).2; omega
  unfold rwPropose
  rw [h2]
  push_cast at hv ⊢
  split_ifs <;> omega

theorem valid_two {x : Fin D → ℤ} (hx : x ∈ validStates 2 D) (i : Fin D) : x i = 0 ∨ x i = 1 := by
  have hv := (mem_validStates.1 hx) i
  push_cast at hv
  omega

/-- One step of the random walk on `siteModel`: probability that the site is 1 afterwards. -/
noncomputable def siteValue (ρ tiny p : ℝ) (one : Prop) [Decidable one] : ℝ :=
  if one then 1 - p * acceptProb tiny (Real.log ρ) else p * acceptProb tiny (-Real.log ρ)

theorem rw_site_one {tiny : ℝ} (ht : 0 ≤ tiny) (t ρ : ℝ) (i : Fin D) (s : RWState)
    {x : Fin D → ℤ} (hx : x ∈ validStates 2 D) :
    adaptiveExpect (rwLaws 2) (rwMove true t tiny (siteModel ρ i) 2) (fun x => if x i = 1 then 1 else 0) 1 s x =
      siteValue ρ tiny (s.radius / D) (x i = 1) := by
  rw [adaptiveExpect_succ (Ω := fun _ : RWState => RWDraw 2 D) (p := rwLaws 2)
    (step := rwMove true t tiny (siteModel ρ i) 2) (s := s) (x := x) ht (m := fun d => rwPropose x d)
    (l := fun d => siteModel ρ i (rwPropose x d) - siteModel ρ i x)
    (F := fun _ y => if y i = 1 then 1 else 0)
    (fun d u h => rwMove_accept h) (fun d u h => rwMove_reject h) (fun d u y => rfl)]
  unfold rwLaws siteValue
  rcases valid_two hx i with h | h
  · rw [Finset.sum_congr rfl (g := fun d => rwDrawLaw 2 D s.radius d *
      (fun b => if b then acceptProb tiny (-Real.log ρ) else 0) (d.1 i)),
      sum_rwDrawLaw_site s.radius i fun b => if b then acceptProb tiny (-Real.log ρ) else 0]
    · simp [h]
    · intro d _
      congr 1
      unfold siteModel
      rw [rwPropose_two x hx, h]
      cases d.1 i <;> simp
  · rw [Finset.sum_congr rfl (g := fun d => rwDrawLaw 2 D s.radius d *
      (fun b => if b then 1 - acceptProb tiny (Real.log ρ) else 1) (d.1 i)),
      sum_rwDrawLaw_site s.radius i fun b => if b then 1 - acceptProb tiny (Real.log ρ) else 1]
    · simp [h]; ring
    · intro d _
      congr 1
      unfold siteModel
      rw [rwPropose_two x hx, h]
      cases d.1 i <;> simp

/-- Two steps: the radius of the second step is `R₂` exactly if the first step proposed to leave 1. -/
theorem rw_site_two {tiny : ℝ} (ht : 0 ≤ tiny) (t : ℝ) {ρ : ℝ} (h0 : 0 < ρ) (h1 : ρ ≤ 1) (i : Fin D)
    (s : RWState) {x : Fin D → ℤ} (hx : x ∈ validStates 2 D) :
    let p := s.radius / D
    let R₁ := clip (s.radius + 1 - t) 1 D
    let R₂ := clip (s.radius + ρ - t) 1 D
    let b := acceptProb tiny (Real.log ρ)
    let c := acceptProb tiny (-Real.log ρ)
    adaptiveExpect (rwLaws 2) (rwMove true t tiny (siteModel ρ i) 2) (fun x => if x i = 1 then 1 else 0) 2 s x =
      if x i = 1 then p * (b * (R₂ / D * c) + (1 - b) * (1 - R₂ / D * b)) + (1 - p) * (1 - R₁ / D * b)
      else p * (c * (1 - R₁ / D * b) + (1 - c) * (R₁ / D * c)) + (1 - p) * (R₁ / D * c) := by
  intro p R₁ R₂ b c
  have hlog : Real.log ρ ≤ 0 := Real.log_nonpos h0.le h1
  rw [adaptiveExpect_succ_valid (Ω := fun _ : RWState => RWDraw 2 D) (p := rwLaws 2)
    (step := rwMove true t tiny (siteModel ρ i) 2) (s := s) (x := x) ht (S := validStates 2 D) (m := fun d => rwPropose x d)
    (l := fun d => siteModel ρ i (rwPropose x d) - siteModel ρ i x)
    (F := fun d y => siteValue ρ tiny
      (clip (s.radius + Real.exp (clipMax (siteModel ρ i (rwPropose x d) - siteModel ρ i x) 0) - t) 1 D / D)
      (y i = 1))
    (fun d u h => rwMove_accept h) (fun d u h => rwMove_reject h) hx
    (fun d => rwPropose_valid (by norm_num) x d)
    (fun d u y hy => by rw [rw_site_one ht t ρ i _ hy, rwMove_radius])]
  unfold rwLaws
  rcases valid_two hx i with h | h
  · rw [Finset.sum_congr rfl (g := fun d => rwDrawLaw 2 D s.radius d *
      (fun e => if e then c * (1 - R₁ / D * b) + (1 - c) * (R₁ / D * c) else R₁ / D * c) (d.1 i)),
      sum_rwDrawLaw_site s.radius i fun e => if e then c * (1 - R₁ / D * b) + (1 - c) * (R₁ / D * c) else R₁ / D * c]
    · simp [h, p]
    · intro d _
      congr 1
      unfold siteModel siteValue
      rw [rwPropose_two x hx, h]
      cases d.1 i
      · simp [clipMax, R₁, c]; ring
      · have : min (-Real.log ρ) 0 = 0 := min_eq_right (by linarith)
        simp [clipMax, this, R₁, c, b]
  · rw [Finset.sum_congr rfl (g := fun d => rwDrawLaw 2 D s.radius d *
      (fun e => if e then b * (R₂ / D * c) + (1 - b) * (1 - R₂ / D * b) else 1 - R₁ / D * b) (d.1 i)),
      sum_rwDrawLaw_site s.radius i fun e => if e then b * (R₂ / D * c) + (1 - b) * (1 - R₂ / D * b) else 1 - R₁ / D * b]
    · simp [h, p]
    · intro d _
      congr 1
      unfold siteModel siteValue
      rw [rwPropose_two x hx, h]
      cases d.1 i
      · simp [clipMax, R₁, b]; ring
      · have : min (Real.log ρ) 0 = Real.log ρ := min_eq_left hlog
        simp [clipMax, this, Real.exp_log h0, R₂, c, b]

/-- Sum over the valid states of a function of site `i` against `siteModel`. -/
theorem sum_siteModel {ρ : ℝ} (h0 : 0 < ρ) (i : Fin D) (v : (Fin D → ℤ) → ℝ) (a e : ℝ)
    (hv : ∀ x ∈ validStates 2 D, v x = if x i = 1 then a else e) :
    ∑ x ∈ validStates 2 D, Real.exp (siteModel ρ i x) * v x =
      ((validStates 2 D).filter fun x => x i = 1).card * (a + ρ * e) := by
  have hcard : ((validStates 2 D).filter fun x => x i = 1).card =
      ((validStates 2 D).filter fun x => ¬ x i = 1).card := by
    refine Finset.card_bij (fun x _ => Function.update x i (1 - x i)) ?_ ?_ ?_
    · intro x hx
      rw [Finset.mem_filter] at hx ⊢
      refine ⟨mem_validStates.2 fun j => ?_, by simp [hx.2]⟩
      rcases eq_or_ne j i with rfl | hj
      · simp [hx.2]
      · rw [Function.update_of_ne hj]; exact mem_validStates.1 hx.1 j
    · intro x hx y hy hxy
      rw [Finset.mem_filter] at hx hy
      funext j
      rcases eq_or_ne j i with rfl | hj
      · rw [hx.2, hy.2]
      · simpa [Function.update_of_ne hj] using congrFun hxy j
    · intro y hy
      rw [Finset.mem_filter] at hy
      have hy0 : y i = 0 := (valid_two hy.1 i).resolve_right hy.2
      refine ⟨Function.update y i 1, ?_, ?_⟩
      · rw [Finset.mem_filter]
        refine ⟨mem_validStates.2 fun j => ?_, by simp⟩
        rcases eq_or_ne j i with rfl | hj
        · simp
        · rw [Function.update_of_ne hj]; exact mem_validStates.1 hy.1 j
      · funext j
        rcases eq_or_ne j i with rfl | hj
        · simp [hy0]
        · simp [Function.update_of_ne hj]
  have e1 : ∀ x ∈ validStates 2 D, Real.exp (siteModel ρ i x) * v x = if x i = 1 then a else ρ * e := by
    intro x hx
    rw [hv x hx]
    unfold siteModel
    split_ifs
    · simp
    · rw [Real.exp_log h0]
  rw [Finset.sum_congr rfl e1, Finset.sum_ite, Finset.sum_const, Finset.sum_const, ← hcard]
  simp only [nsmul_eq_mul]
  ring

/-- **C88 (exact bias after two steps).** On `siteModel` with an ideal acceptance test, an adaptive run that
starts with the target distribution has lost, after two steps, the share
`ρ² (r / D) (R₁ - R₂) / D` of the weight of the likelier half: `R₁` and `R₂` are the radii after a step with
acceptance ratio 1 and `ρ`. -/
theorem rwAdaptive_two_steps (t : ℝ) {ρ : ℝ} (h0 : 0 < ρ) (h1 : ρ ≤ 1) (i : Fin D) (s : RWState) :
    ∑ x ∈ validStates 2 D, Real.exp (siteModel ρ i x) *
        adaptiveExpect (rwLaws 2) (rwMove true t 0 (siteModel ρ i) 2) (fun x => if x i = 1 then 1 else 0) 2 s x =
      (∑ x ∈ validStates 2 D, Real.exp (siteModel ρ i x) * if x i = 1 then 1 else 0) *
        (1 - ρ ^ 2 * (s.radius / D) *
          ((clip (s.radius + 1 - t) 1 D - clip (s.radius + ρ - t) 1 D) / D)) := by
  have hb : acceptProb 0 (Real.log ρ) = ρ := by rw [acceptProb_zero, Real.exp_log h0, min_eq_right h1]
  have hc : acceptProb 0 (-Real.log ρ) = 1 := by
    rw [acceptProb_zero, Real.exp_neg, Real.exp_log h0, min_eq_left]
    exact (one_le_inv₀ h0).2 h1
  rw [sum_siteModel h0 i _ _ _ fun x hx => rw_site_two le_rfl t h0 h1 i s hx,
    sum_siteModel h0 i _ 1 0 fun x hx => rfl]
  simp only [hb, hc]
  ring

/-- **C88 (refuted).** The adaptive random walk does not keep the target: for every dimension `D ≥ 2`, every
requested acceptance rate in `(0, 1)` and every offset of the acceptance test that is small against
`1 / D²` (the code's `1e-24` for every sample of fewer than `10^11` sites, see the corollary below) there is
a model whose target is lost within two steps from the initial state. -/
theorem rwAdaptive_not_kept (hD : 2 ≤ D) {t tiny : ℝ} (h0 : 0 < t) (h1 : t < 1) (ht : 0 ≤ tiny)
    (hsmall : 32 * (D : ℝ) ^ 2 * tiny < min (1 - t) (1 / 2)) :
    ∃ f : (Fin D → ℤ) → ℝ, ¬ KeepsTarget (validStates 2 D) (fun x => Real.exp (f x)) (rwLaws 2)
      (rwMove true t tiny f 2) rwInit := by
  have hD0 : 0 < D := by omega
  set i : Fin D := ⟨0, hD0⟩
  refine ⟨siteModel (1 / 2) i, fun hk => ?_⟩
  have hk2 := hk (fun x => if x i = 1 then 1 else 0) 2
  rw [sum_siteModel (by norm_num) i _ _ _ fun x hx =>
    rw_site_two ht t (by norm_num : (0 : ℝ) < 1 / 2) (by norm_num) i rwInit hx,
    sum_siteModel (by norm_num) i _ 1 0 fun x hx => rfl] at hk2
  have hN : (0 : ℝ) < ((validStates 2 D).filter fun x => x i = 1).card := by
    rw [Nat.cast_pos, Finset.card_pos]
    exact ⟨fun _ => 1, by rw [Finset.mem_filter, mem_validStates]; exact ⟨fun j => by simp, rfl⟩⟩
  have hk3 := mul_left_cancel₀ hN.ne' hk2
  have hDr : (2 : ℝ) ≤ D := by exact_mod_cast hD
  have hDp : (0 : ℝ) < D := by linarith
  have htiny : tiny ≤ 1 / 4 := by
    have h2 := hsmall.trans_le (min_le_right _ _)
    nlinarith [mul_nonneg ht (sq_nonneg ((D : ℝ) - 1))]
  have hb : acceptProb tiny (Real.log (1 / 2)) = 1 / 2 - tiny := by
    unfold acceptProb
    rw [Real.exp_log (by norm_num), min_eq_right (by linarith), max_eq_right (by linarith)]
  have hc : acceptProb tiny (-Real.log (1 / 2)) = 1 := by
    unfold acceptProb
    rw [Real.exp_neg, Real.exp_log (by norm_num), min_eq_left (by norm_num; linarith), max_eq_right zero_le_one]
  have hr : rwInit.radius = 1 := rfl
  have hR1 : clip (1 + 1 - t) 1 (D : ℝ) = 2 - t := by
    unfold clip
    rw [max_eq_left (by linarith), min_eq_left (by linarith)]; ring
  set R₂ := clip (1 + 1 / 2 - t) 1 (D : ℝ) with hR2
  have hR2' : R₂ ≤ 2 - t - min (1 - t) (1 / 2) ∧ 0 ≤ R₂ := by
    rw [hR2]; unfold clip
    rcases le_total (1 + 1 / 2 - t) 1 with h | h
    · rw [max_eq_right h, min_eq_left (by linarith)]
      exact ⟨by linarith [min_le_left (1 - t) (1 / 2)], by norm_num⟩
    · rw [max_eq_left h, min_eq_left (by linarith)]
      exact ⟨by linarith [min_le_right (1 - t) (1 / 2)], by linarith⟩
  simp only [hb, hc, hr, hR1] at hk3
  rw [← hR2] at hk3
  set q := (1 : ℝ) / D with hq
  have hqp : 0 < q := by positivity
  have hq2 : q ≤ 1 / 2 := by rw [hq]; exact one_div_le_one_div_of_le (by norm_num) hDr
  have e1 : (2 - t) / (D : ℝ) = (2 - t) * q := by rw [hq]; ring
  have e2 : R₂ / (D : ℝ) = R₂ * q := by rw [hq]; ring
  rw [e1, e2] at hk3
  set δ := min (1 - t) (1 / 2) with hδ
  have hs : 32 * tiny < δ * q ^ 2 := by
    have : q ^ 2 * (D : ℝ) ^ 2 = 1 := by rw [hq]; field_simp
    have h3 := mul_lt_mul_of_pos_left hsmall (by positivity : 0 < q ^ 2)
    have h4 : q ^ 2 * (32 * (D : ℝ) ^ 2 * tiny) = 32 * tiny * (q ^ 2 * (D : ℝ) ^ 2) := by ring
    rw [h4, this, mul_one] at h3
    linarith
  have hβ : 1 / 4 ≤ 1 / 2 - tiny := by linarith
  have hgap : q * δ ≤ (2 - t) * q - R₂ * q := by
    have := mul_le_mul_of_nonneg_right hR2'.1 hqp.le
    linarith
  have hp1' : 0 ≤ (2 - t) * q := mul_nonneg (by linarith) hqp.le
  have hp1 : (2 - t) * q ≤ 1 :=
    (mul_le_mul_of_nonneg_left hq2 (by linarith : 0 ≤ 2 - t)).trans (by linarith)
  have hδp : 0 < δ := lt_min (by linarith) (by norm_num)
  -- the loss through the correlation
  have hA : q ^ 2 * δ / 16 ≤ q * (1 / 2 - tiny) * ((2 - t) * q * (1 / 2) - R₂ * q * (1 / 2 - tiny)) := by
    have a1 : (1 / 2 - tiny) * (q * δ) ≤ (2 - t) * q * (1 / 2) - R₂ * q * (1 / 2 - tiny) := by
      have := mul_le_mul_of_nonneg_left hgap (by linarith : 0 ≤ 1 / 2 - tiny)
      have := mul_nonneg hp1' ht
      linarith
    have a2 := mul_le_mul_of_nonneg_left a1 (mul_nonneg hqp.le (by linarith) : 0 ≤ q * (1 / 2 - tiny))
    have a3 : (1 / 16 : ℝ) ≤ (1 / 2 - tiny) ^ 2 := by
      have := pow_le_pow_left₀ (by norm_num) hβ 2
      linarith
    have a4 := mul_le_mul_of_nonneg_right a3 (by positivity : 0 ≤ q ^ 2 * δ)
    linarith
  have hid : q * tiny + (2 - t) * q * tiny * (1 - q) =
      q * (1 / 2 - tiny) * ((2 - t) * q * (1 / 2) - R₂ * q * (1 / 2 - tiny)) := by
    linear_combination hk3
  have hB : q * tiny + (2 - t) * q * tiny * (1 - q) ≤ 2 * tiny := by
    have b1 := mul_le_mul_of_nonneg_right hq2 ht
    have b2 := mul_le_mul_of_nonneg_right hp1 ht
    have b3 := mul_nonneg (mul_nonneg hp1' ht) hqp.le
    linarith
  linarith

/-- **C88 (as configured).** Default acceptance rate, the code's offset, any sample of at least two and
fewer than `10 ^ 11` sites. -/
theorem rwAdaptive_not_kept_default (hD : 2 ≤ D) (hD' : D < 10 ^ 11) :
    ∃ f : (Fin D → ℤ) → ℝ, ¬ KeepsTarget (validStates 2 D) (fun x => Real.exp (f x)) (rwLaws 2)
      (rwMove true 0.237 mhTiny f 2) rwInit := by
  refine rwAdaptive_not_kept hD (by norm_num) (by norm_num) mhTiny_nonneg ?_
  have h : (D : ℝ) < 10 ^ 11 := by exact_mod_cast hD'
  have h2 : (D : ℝ) ^ 2 ≤ (10 ^ 11) ^ 2 := pow_le_pow_left₀ (Nat.cast_nonneg _) h.le 2
  unfold mhTiny
  rw [lt_min_iff]
  constructor <;> norm_num at h2 ⊢ <;> linarith

/-- With a single site the clipped radius is 1 whatever happens, so there is nothing to adapt. -/
example (t tiny : ℝ) (f : (Fin 1 → ℤ) → ℝ) (s : RWState) (x : Fin 1 → ℤ) (d : RWDraw 2 1) (u : ℝ) :
    (rwMove true t tiny f 2 s x d u).2.radius = 1 := by
  rw [rwMove_radius]; simp [clip]

/-- Instance: two sites, `ρ = 1 / 2`, default rate; the share of the likelier half drops by 3 percent of
itself within two steps. -/
example : (1 : ℝ) / 2 * (1 / 2) * (1 / 2) * ((clip (1 + 1 - 0.237) 1 2 - clip (1 + 1 / 2 - 0.237) 1 2) / 2) =
    1 / 32 := by
  unfold clip; norm_num

end Discs
