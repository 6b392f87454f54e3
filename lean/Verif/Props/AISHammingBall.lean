import Verif.Props.AISAdaptive
import Verif.Props.HammingBall

/-!
# C113: the reported log Z with the Hamming ball sampler

The Hamming ball step does not keep its target for blocks of two or more sites (C10): the radius of the ball is drawn
with logits that overweight the neighbours.  The annealed estimate of `log Z` inherits the error.
-/

namespace Discs

open Finset Spec

variable {D : ℕ}

/-- One Hamming ball step of a single chain: next sample and next state.  The step draws no uniform number. -/
def hbMove (C b : ℕ) (s : BlockState) (x : Fin D → ℤ) (d : HBDraw C b) (_u : ℝ) : (Fin D → ℤ) × BlockState :=
  let r := hbStep C b (fun _ : Fin 1 => x) d.1 (fun _ => d.2) s
  (r.1 0, r.2.1)

/-- Expected value over the selection among the candidates of `u`. -/
noncomputable def hbMean (f : (Fin D → ℤ) → ℝ) (C b start : ℕ) (G : (Fin D → ℤ) → ℝ) (u : Fin D → ℤ) : ℝ :=
  ∑ n, softmax (fun n => f (hbCandidates C b start u n)) n * G (hbCandidates C b start u n)

theorem hbMean_eq (f : (Fin D → ℤ) → ℝ) (C b start : ℕ) (G : (Fin D → ℤ) → ℝ) (u : Fin D → ℤ) :
    hbMean f C b start G u =
      (∑ n, Real.exp (f (hbCandidates C b start u n)) * G (hbCandidates C b start u n)) /
        ∑ n, Real.exp (f (hbCandidates C b start u n)) := by
  unfold hbMean softmax
  rw [Finset.sum_div]
  exact Finset.sum_congr rfl fun n _ => by ring

theorem hb_expect (f : (Fin D → ℤ) → ℝ) {b : ℕ} (hb : 1 ≤ b) (m : ℕ) (s : BlockState)
    (x : Fin D → ℤ) (u : ℝ) (G : (Fin D → ℤ) → ℝ) :
    ∑ d, hbDrawLaw f 2 b m s x d * G (hbMove 2 b s x d u).1 =
      softmax (hammingLogit m) 0 * hbMean f 2 b s.index G x +
        softmax (hammingLogit m) 1 / b * ∑ j : Fin b, hbMean f 2 b s.index G (shiftAt 2 x (s.index + j) 1) := by
  have hb' : (b : ℝ) ≠ 0 := by exact_mod_cast (by omega : b ≠ 0)
  have one : ∀ F : Fin (2 - 1) → ℝ, ∑ k, F k = F 0 := fun F => Fin.sum_univ_one F
  rw [Fintype.sum_prod_type, Fin.sum_univ_two]
  congr 1
  · rw [Fintype.sum_prod_type]
    have : ∀ j : Fin b, (∑ z : Fin (2 - 1) × Fin (b * (2 - 1) + 1),
        hbDrawLaw f 2 b m s x ((0 : Fin 2), j, z) * G (hbMove 2 b s x ((0 : Fin 2), j, z) u).1) =
        1 / (b : ℝ) * (softmax (hammingLogit m) 0 * hbMean f 2 b s.index G x) := by
      intro j
      rw [Fintype.sum_prod_type, one]
      unfold hbMean
      simp only [Finset.mul_sum]
      refine Finset.sum_congr rfl fun n _ => ?_
      simp only [hbMove, hbStep, hbAux, hbDrawLaw, if_true]
      norm_num
      ring
    simp only [this, Finset.sum_const, Finset.card_univ, Fintype.card_fin, nsmul_eq_mul]
    field_simp
  · rw [Fintype.sum_prod_type, Finset.mul_sum]
    refine Finset.sum_congr rfl fun j _ => ?_
    rw [Fintype.sum_prod_type, one]
    unfold hbMean
    rw [Finset.mul_sum]
    refine Finset.sum_congr rfl fun n _ => ?_
    have h10 : (1 : Fin 2) ≠ 0 := by decide
    simp only [hbMove, hbStep, hbAux, hbDrawLaw, if_neg h10]
    norm_num
    ring

theorem hbDrawLaw_prob (f : (Fin D → ℤ) → ℝ) {b : ℕ} (hb : 1 ≤ b) (m : ℕ) (s : BlockState) (x : Fin D → ℤ) :
    (∀ d, 0 ≤ hbDrawLaw f 2 b m s x d) ∧ ∑ d, hbDrawLaw f 2 b m s x d = 1 := by
  have hp := isProb_softmax (hammingLogit m)
  have hb' : (b : ℝ) ≠ 0 := by exact_mod_cast (by omega : b ≠ 0)
  constructor
  · intro d
    unfold hbDrawLaw
    exact mul_nonneg (mul_nonneg (mul_nonneg (hp.1 _) (by positivity)) (by positivity)) ((isProb_softmax _).1 _)
  · have h := hb_expect f hb m s x 0 fun _ => 1
    have hm : ∀ u, hbMean f 2 b s.index (fun _ => 1) u = 1 := fun u => by
      unfold hbMean; simp only [mul_one]; exact (isProb_softmax _).2
    simp only [mul_one, hm, Finset.sum_const, Finset.card_univ, Fintype.card_fin, nsmul_eq_mul] at h
    rw [h, div_mul_cancel₀ _ hb', ← Fin.sum_univ_two (fun i => softmax (hammingLogit m) i)]
    exact hp.2

/-- Shifting a block position of a binary sample flips that site. -/
theorem shiftAt_two {x : Fin D → ℤ} (hx : x ∈ validStates 2 D) (idx : ℕ) (i : Fin D) :
    shiftAt 2 x idx 1 i = if (i : ℕ) = idx then 1 - x i else x i := by
  unfold shiftAt
  split_ifs
  · rcases valid_two hx i with h | h <;> rw [h] <;> norm_num
  · rfl

/-- The selection on a model that looks at site `i` only, for a block from site 0 that contains `i`. -/
theorem hbMean_site {f : (Fin D → ℤ) → ℝ} {w K : ℝ} (hw : 0 < w) {i : Fin D}
    (hf : ∀ x, f x = K + siteModel w i x) {b : ℕ} (hi : (i : ℕ) < b) {u : Fin D → ℤ} (hu : u ∈ validStates 2 D) :
    hbMean f 2 b 0 (fun y => if y i = 1 then 1 else w) u =
      if u i = 1 then (b + w ^ 2) / (b + w) else (b * w ^ 2 + 1) / (b * w + 1) := by
  have hb' : (0 : ℝ) < b := by exact_mod_cast (by omega : 0 < b)
  have one : ∀ F : Fin (2 - 1) → ℝ, ∑ k, F k = F 0 := fun F => Fin.sum_univ_one F
  have cnt : ∀ A B : ℝ, ∑ j : Fin b, (if (i : ℕ) = 0 + (j : ℕ) then A else B) = A + (b - 1) * B := by
    intro A B
    have e : ∀ j : Fin b, (if (i : ℕ) = 0 + (j : ℕ) then A else B) =
        B + if j = ⟨i, hi⟩ then A - B else 0 := by
      intro j
      have : (i : ℕ) = 0 + (j : ℕ) ↔ j = ⟨i, hi⟩ := by rw [Fin.ext_iff]; simp; exact eq_comm
      by_cases h : j = ⟨i, hi⟩
      · rw [if_pos (this.2 h), if_pos h]; ring
      · rw [if_neg fun h' => h (this.1 h'), if_neg h]; ring
    rw [Finset.sum_congr rfl fun j _ => e j, Finset.sum_add_distrib, Finset.sum_ite_eq' univ]
    simp only [Finset.sum_const, Finset.card_univ, Fintype.card_fin, nsmul_eq_mul, mem_univ, if_true]
    ring
  have ex : ∀ y : Fin D → ℤ, Real.exp (f y) = Real.exp K * if y i = 1 then 1 else w := fun y => by
    rw [hf, Real.exp_add, siteModel]
    split_ifs
    · rw [Real.exp_zero]
    · rw [Real.exp_log hw]
  have site : ∀ (F : ℤ → ℝ) (j : Fin b), F (shiftAt 2 u (0 + (j : ℕ)) (((0 : ℕ) + 1 : ℕ) : ℤ) i) =
      if (i : ℕ) = 0 + (j : ℕ) then F (1 - u i) else F (u i) := fun F j => by
    rw [show (((0 : ℕ) + 1 : ℕ) : ℤ) = 1 by norm_num, shiftAt_two hu]
    split_ifs <;> rfl
  rw [hbMean_eq, sum_hbCandidates 2 b 0 u fun y => Real.exp (f y) * if y i = 1 then 1 else w,
    sum_hbCandidates 2 b 0 u fun y => Real.exp (f y)]
  simp only [one, ex, Fin.val_zero]
  have hE := (Real.exp_pos K).ne'
  have s1 := site (fun v => Real.exp K * (if v = 1 then 1 else w) * (if v = 1 then 1 else w))
  have s2 := site (fun v => Real.exp K * (if v = 1 then 1 else w))
  rw [Finset.sum_congr rfl fun j _ => s1 j, Finset.sum_congr rfl fun j _ => s2 j, cnt, cnt]
  have p1 : (b : ℝ) + w ≠ 0 := by positivity
  have p2 : (b : ℝ) * w + 1 ≠ 0 := by positivity
  rcases valid_two hu i with h | h
  · simp only [h]
    norm_num
    rw [div_eq_div_iff (fun h0 => p2 ((mul_eq_zero.1
      (by linear_combination h0 : Real.exp K * (b * w + 1) = 0)).resolve_left hE)) p2]
    ring
  · simp only [h]
    norm_num
    rw [div_eq_div_iff (fun h0 => p1 ((mul_eq_zero.1
      (by linear_combination h0 : Real.exp K * (b + w) = 0)).resolve_left hE)) p1]
    ring

/-- Expected next factor of the estimate after a step from `x`; `a` is the probability that the auxiliary point
differs from `x` in site `i`. -/
theorem hb_next {f : (Fin D → ℤ) → ℝ} {w K : ℝ} (hw : 0 < w) {i : Fin D} (hf : ∀ x, f x = K + siteModel w i x)
    {b : ℕ} (hi : (i : ℕ) < b) (s : BlockState) (hs : s.index = 0) {x : Fin D → ℤ} (hx : x ∈ validStates 2 D) (u : ℝ) :
    let a := softmax (hammingLogit b) 1 / b
    let S₁ := (b + w ^ 2) / (b + w)
    let S₀ := (b * w ^ 2 + 1) / (b * w + 1)
    ∑ d, hbDrawLaw f 2 b b s x d * (if (hbMove 2 b s x d u).1 i = 1 then 1 else w) =
      if x i = 1 then (1 - a) * S₁ + a * S₀ else (1 - a) * S₀ + a * S₁ := by
  intro a S₁ S₀
  have hb' : (b : ℝ) ≠ 0 := by exact_mod_cast (by omega : b ≠ 0)
  rw [hb_expect f (by omega : 1 ≤ b) b s x u fun y => if y i = 1 then 1 else w, hs, hbMean_site hw hf hi hx,
    Finset.sum_congr rfl fun j _ => hbMean_site hw hf hi (shiftAt_valid hx _ _)]
  have hsum : ∑ j : Fin b, (if shiftAt 2 x (0 + (j : ℕ)) 1 i = 1 then S₁ else S₀) =
      (if x i = 1 then S₀ else S₁) + (b - 1) * if x i = 1 then S₁ else S₀ := by
    have e : ∀ j : Fin b, (if shiftAt 2 x (0 + (j : ℕ)) 1 i = 1 then S₁ else S₀) =
        (if x i = 1 then S₁ else S₀) +
          if j = ⟨i, hi⟩ then (if x i = 1 then S₀ else S₁) - (if x i = 1 then S₁ else S₀) else 0 := by
      intro j
      rw [shiftAt_two hx]
      have : (i : ℕ) = 0 + (j : ℕ) ↔ j = ⟨i, hi⟩ := by rw [Fin.ext_iff]; simp; exact eq_comm
      by_cases h : j = ⟨i, hi⟩
      · rw [if_pos (this.2 h), if_pos h]
        rcases valid_two hx i with h' | h' <;> rw [h'] <;> norm_num
      · rw [if_neg fun h' => h (this.1 h'), if_neg h, add_zero]
    rw [Finset.sum_congr rfl fun j _ => e j, Finset.sum_add_distrib, Finset.sum_ite_eq' univ]
    simp only [Finset.sum_const, Finset.card_univ, Fintype.card_fin, nsmul_eq_mul, mem_univ, if_true]
    ring
  rw [hsum]
  have hp : softmax (hammingLogit b) 0 = 1 - b * a := by
    have := (isProb_softmax (hammingLogit b)).2
    rw [Fin.sum_univ_two] at this
    simp only [a]
    rw [mul_div_cancel₀ _ hb']
    linarith
  rw [hp]
  show _ + a * _ = _
  split_ifs <;> simp only [S₁, S₀] <;> ring

/-- A weight for which two steps lose more than the whole remaining mass. -/
theorem hb_small {b : ℕ} (hb : 2 ≤ b) : ∃ w : ℝ, 0 < w ∧ w < 1 ∧
    let a := softmax (hammingLogit b) 1 / b
    let S₁ := (b + w ^ 2) / (b + w)
    let S₀ := (b * w ^ 2 + 1) / (b * w + 1)
    (1 - a) * S₁ + a * S₀ + w * ((1 - a) * S₀ + a * S₁) < 1 := by
  have hbr : (2 : ℝ) ≤ b := by exact_mod_cast hb
  have hκ := hb_coeff_neg hb
  have hp := isProb_softmax (hammingLogit b)
  have hsum := hp.2
  rw [Fin.sum_univ_two] at hsum
  set a := softmax (hammingLogit b) 1 / b with ha
  have hb0 : (b : ℝ) ≠ 0 := by linarith
  have hp1 : softmax (hammingLogit b) 1 = b * a := by rw [ha]; field_simp
  have ha0 : 0 ≤ a := div_nonneg (hp.1 1) (by linarith)
  have ha1 : a ≤ 1 := by
    have := hp.1 0
    nlinarith
  have hab : 1 < a * (b + 1) := by nlinarith
  -- the mass that leaves the likelier value, in units of `w`
  set ε := (1 - a) / b + a * b - 1 with hε
  have hε0 : 0 < ε := by
    have e : ε = (a * (b + 1) - 1) * (b - 1) / b := by rw [hε]; field_simp; ring
    rw [e]
    exact div_pos (mul_pos (by linarith) (by linarith)) (by linarith)
  set w := ε / (2 * (b + 1) * (1 + ε)) with hw
  have hw0 : 0 < w := by positivity
  have hwε : (b + 1) * w * (1 + ε) = ε / 2 := by rw [hw]; field_simp
  have hw1 : (b + 1) * w < 1 := by
    by_contra hc
    push Not at hc
    have := mul_le_mul_of_nonneg_right hc (by linarith : 0 ≤ 1 + ε)
    linarith
  have hwlt : w < 1 := by nlinarith
  refine ⟨w, hw0, hwlt, ?_⟩
  simp only
  have p1 : 0 < (b : ℝ) + w := by positivity
  have p2 : 0 < (b : ℝ) * w + 1 := by positivity
  have e1 : (b + w ^ 2) / (b + w) = 1 - w * (1 - w) / (b + w) := by field_simp; ring
  have e0 : (b * w ^ 2 + 1) / (b * w + 1) = 1 - b * w * (1 - w) / (b * w + 1) := by field_simp; ring
  have q1 : 1 / (b : ℝ) * (1 - b * w) ≤ 1 / (b + w) := by
    rw [div_mul_eq_mul_div, div_le_div_iff₀ (by linarith) p1]
    nlinarith [mul_nonneg hw0.le (sq_nonneg w), mul_pos hw0 hw0, mul_pos (mul_pos hw0 hw0) (by linarith : (0:ℝ) < b)]
  have q2 : 1 - b * w ≤ 1 / (b * w + 1) := by
    rw [le_div_iff₀ p2]; nlinarith [sq_nonneg (b * w)]
  set s₁ := 1 / ((b : ℝ) + w) with hs1
  set s₀ := 1 / ((b : ℝ) * w + 1) with hs0
  have f1 : (b + w ^ 2) / (b + w) = 1 - w * (1 - w) * s₁ := by rw [e1, hs1]; ring
  have f0 : (b * w ^ 2 + 1) / (b * w + 1) = 1 - b * w * (1 - w) * s₀ := by rw [e0, hs0]; ring
  have hs1p : 0 < s₁ := by positivity
  have hs0p : 0 < s₀ := by positivity
  rw [f1, f0]
  have r1 : (1 - a) * (1 / (b : ℝ) * (1 - b * w)) ≤ (1 - a) * s₁ := mul_le_mul_of_nonneg_left q1 (by linarith)
  have r2 : a * b * (1 - b * w) ≤ a * b * s₀ := mul_le_mul_of_nonneg_left q2 (by positivity)
  have r3 : (1 - b * w) * (1 + ε) ≤ (1 - a) * s₁ + a * b * s₀ := by
    have : (1 - b * w) * (1 + ε) = (1 - a) * (1 / (b : ℝ) * (1 - b * w)) + a * b * (1 - b * w) := by
      rw [hε]; ring
    linarith
  have r4 : 1 < (1 - w) * ((1 - a) * s₁ + a * b * s₀) := by
    have h1 := mul_le_mul_of_nonneg_left r3 (by linarith : 0 ≤ 1 - w)
    have h2 : (1 - w) * ((1 - b * w) * (1 + ε)) = (1 + ε) - (b + 1) * w * (1 + ε) + b * w ^ 2 * (1 + ε) := by ring
    have h3 : 0 ≤ b * w ^ 2 * (1 + ε) := by positivity
    linarith
  have r5 := mul_lt_mul_of_pos_left r4 hw0
  have r6 : 0 ≤ w * ((1 - a) * (b * w * (1 - w) * s₀) + a * (w * (1 - w) * s₁)) := by
    refine mul_nonneg hw0.le (add_nonneg (mul_nonneg (by linarith) ?_) (mul_nonneg ha0 ?_))
    · exact mul_nonneg (mul_nonneg (by positivity) (by linarith)) hs0p.le
    · exact mul_nonneg (mul_nonneg (by positivity) (by linarith)) hs1p.le
  nlinarith

/-- **C113 (refuted for the Hamming ball sampler).** For every block size `b ≥ 2` that fits into the sample there is a
network, for every number `L ≥ 2` of temperature steps, whose partition function is underestimated. -/
theorem hb_ais_biased {b : ℕ} (hb : 2 ≤ b) {i : Fin D} (hi : (i : ℕ) < b) :
    ∃ w : ℝ, 0 < w ∧ w < 1 ∧ ∀ L, 2 ≤ L →
      pathMean (Ω := fun _ : BlockState => HBDraw 2 b) (validStates 2 D) (siteScore w L i 0)
          (fun k => hbDrawLaw (siteScore w L i ((k + 1 : ℕ) / (L : ℝ))) 2 b b) (fun _ => hbMove 2 b)
          (aisEstimate (siteScore w L i) L) L blockInit <
        normaliser (validStates 2 D) (siteScore w L i 1) / normaliser (validStates 2 D) (siteScore w L i 0) := by
  obtain ⟨w, hw0, hw1, hlt⟩ := hb_small hb
  refine ⟨w, hw0, hw1, fun L hL => ?_⟩
  have hL0 : 0 < L := by omega
  set a := softmax (hammingLogit b) 1 / b with ha
  set S₁ := (b + w ^ 2) / (b + w) with hS1
  set S₀ := (b * w ^ 2 + 1) / (b * w + 1) with hS0
  rw [siteScore_ratio hw0 hL0, pathMean_ais _ _ hL0]
  simp only [siteScore_inc hw0 hL0]
  set inc : ℕ → (Fin D → ℤ) → ℝ := fun _ x => if decide (x i = 1) then 1 else w with hinc
  set p := fun k : ℕ => hbDrawLaw (D := D) (siteScore w L i ((k + 1 : ℕ) / (L : ℝ))) 2 b b with hp
  have hprob := fun (k : ℕ) (s : BlockState) (x : Fin D → ℤ) =>
    hbDrawLaw_prob (siteScore w L i ((k + 1 : ℕ) / (L : ℝ))) (by omega : 1 ≤ b) b s x
  have hi01 : ∀ k x, 0 ≤ inc k x ∧ inc k x ≤ 1 := fun k x => by
    rw [hinc]; simp only; split_ifs
    · exact ⟨zero_le_one, le_rfl⟩
    · exact ⟨hw0.le, hw1.le⟩
  have hint : ∀ c : ℝ, (∫ _u in Set.Ico (0 : ℝ) 1, c) = c := fun c => by
    rw [MeasureTheory.setIntegral_const]; simp
  have hsucc : ∀ n k s x, aisVal (Ω := fun _ : BlockState => HBDraw 2 b) p (fun _ => hbMove 2 b) inc (n + 1) k s x =
      inc k x * ∑ d, p k s x d * aisVal (Ω := fun _ : BlockState => HBDraw 2 b) p (fun _ => hbMove 2 b) inc n (k + 1)
        (hbMove 2 b s x d 0).2 (hbMove 2 b s x d 0).1 := by
    intro n k s x
    rw [aisVal]
    congr 1
    refine Finset.sum_congr rfl fun d _ => ?_
    congr 1
    exact hint (aisVal (Ω := fun _ : BlockState => HBDraw 2 b) p (fun _ => hbMove 2 b) inc n (k + 1)
      (hbMove 2 b s x d 0).2 (hbMove 2 b s x d 0).1)
  have hmem : ∀ n k s x, 0 ≤ aisVal (Ω := fun _ : BlockState => HBDraw 2 b) p (fun _ => hbMove 2 b) inc n k s x ∧
      aisVal (Ω := fun _ : BlockState => HBDraw 2 b) p (fun _ => hbMove 2 b) inc n k s x ≤ 1 := by
    intro n
    induction n with
    | zero => intro k s x; simp [aisVal]
    | succ n ih =>
      intro k s x
      rw [hsucc]
      obtain ⟨h1, h2⟩ := hprob k s x
      have h3 : 0 ≤ ∑ d, p k s x d * aisVal (Ω := fun _ : BlockState => HBDraw 2 b) p (fun _ => hbMove 2 b) inc n (k + 1)
          (hbMove 2 b s x d 0).2 (hbMove 2 b s x d 0).1 :=
        Finset.sum_nonneg fun d _ => mul_nonneg (h1 d) (ih _ _ _).1
      have h4 : ∑ d, p k s x d * aisVal (Ω := fun _ : BlockState => HBDraw 2 b) p (fun _ => hbMove 2 b) inc n (k + 1)
          (hbMove 2 b s x d 0).2 (hbMove 2 b s x d 0).1 ≤ 1 := by
        rw [← h2]
        exact Finset.sum_le_sum fun d _ => mul_le_of_le_one_right (h1 d) (ih _ _ _).2
      exact ⟨mul_nonneg (hi01 k x).1 h3, mul_le_one₀ (hi01 k x).2 h3 h4⟩
  have hle : ∀ n k s x, aisVal (Ω := fun _ : BlockState => HBDraw 2 b) p (fun _ => hbMove 2 b) inc (n + 1) k s x ≤
      inc k x := by
    intro n k s x
    rw [hsucc]
    obtain ⟨h1, h2⟩ := hprob k s x
    refine mul_le_of_le_one_right (hi01 k x).1 ?_
    rw [← h2]
    exact Finset.sum_le_sum fun d _ => mul_le_of_le_one_right (h1 d) (hmem _ _ _ _).2
  obtain ⟨n, rfl⟩ : ∃ n, L = n + 2 := ⟨L - 2, by omega⟩
  -- the first two factors
  have htwo : ∀ x ∈ validStates 2 D,
      aisVal (Ω := fun _ : BlockState => HBDraw 2 b) p (fun _ => hbMove 2 b) inc (n + 2) 0 blockInit x ≤
        if x i = 1 then (1 - a) * S₁ + a * S₀ else w * ((1 - a) * S₀ + a * S₁) := by
    intro x hx
    rw [hsucc]
    have hf : ∀ y, siteScore w (n + 2) i ((0 + 1 : ℕ) / ((n + 2 : ℕ) : ℝ)) y = D * Real.log (1 / 2) + siteModel w i y := by
      intro y
      rw [siteScore_step w hL0, zero_add, pow_one]
    have hn := hb_next hw0 hf hi blockInit rfl hx 0
    simp only at hn
    have hle2 : ∑ d, p 0 blockInit x d * aisVal (Ω := fun _ : BlockState => HBDraw 2 b) p (fun _ => hbMove 2 b) inc (n + 1)
        (0 + 1) (hbMove 2 b blockInit x d 0).2 (hbMove 2 b blockInit x d 0).1 ≤
        if x i = 1 then (1 - a) * S₁ + a * S₀ else (1 - a) * S₀ + a * S₁ := by
      rw [← hn]
      refine Finset.sum_le_sum fun d _ => mul_le_mul_of_nonneg_left ?_ ((hprob 0 blockInit x).1 d)
      refine (hle n 1 _ _).trans (le_of_eq ?_)
      rw [hinc]; simp only [decide_eq_true_eq]
    refine (mul_le_mul_of_nonneg_left hle2 (hi01 0 x).1).trans (le_of_eq ?_)
    rw [hinc]
    by_cases h : x i = 1 <;> simp [h]
  have e0 : ∀ x, siteScore w (n + 2) i 0 x = D * Real.log (1 / 2) + siteModel 1 i x := by
    intro x
    have := siteScore_step w hL0 i 0 x
    rwa [Nat.cast_zero, zero_div, pow_zero] at this
  set N : ℝ := (((validStates 2 D).filter fun x => x i = 1).card : ℝ) with hN
  have hNp : 0 < N := by
    rw [hN, Nat.cast_pos, Finset.card_pos]
    exact ⟨fun _ => 1, by rw [Finset.mem_filter, mem_validStates]; exact ⟨fun j => by simp, rfl⟩⟩
  have hE := Real.exp_pos ((D : ℝ) * Real.log (1 / 2))
  have hden : ∑ x ∈ validStates 2 D, Real.exp (siteScore w (n + 2) i 0 x) =
      Real.exp (D * Real.log (1 / 2)) * (N * 2) := by
    have h := sum_siteModel one_pos i (fun _ => 1) 1 1 fun x (_ : x ∈ validStates 2 D) => by split_ifs <;> rfl
    rw [one_mul, one_add_one_eq_two] at h
    rw [hN, ← h, Finset.mul_sum]
    refine Finset.sum_congr rfl fun x _ => ?_
    rw [e0, Real.exp_add, mul_one]
  have hnum : ∑ x ∈ validStates 2 D, Real.exp (siteScore w (n + 2) i 0 x) *
      aisVal (Ω := fun _ : BlockState => HBDraw 2 b) p (fun _ => hbMove 2 b) inc (n + 2) 0 blockInit x ≤
      Real.exp (D * Real.log (1 / 2)) * (N * ((1 - a) * S₁ + a * S₀ + w * ((1 - a) * S₀ + a * S₁))) := by
    have h := sum_siteModel one_pos i (fun x => if x i = 1 then (1 - a) * S₁ + a * S₀ else w * ((1 - a) * S₀ + a * S₁))
      ((1 - a) * S₁ + a * S₀) (w * ((1 - a) * S₀ + a * S₁)) fun x _ => rfl
    rw [one_mul] at h
    rw [hN, ← h, Finset.mul_sum]
    refine Finset.sum_le_sum fun x hx => ?_
    rw [e0, Real.exp_add, mul_assoc]
    exact mul_le_mul_of_nonneg_left (mul_le_mul_of_nonneg_left (htwo x hx) (Real.exp_pos _).le) hE.le
  rw [hden, div_lt_div_iff₀ (by positivity) two_pos]
  have hwL : 0 < w ^ (n + 2) := pow_pos hw0 _
  have hEN : 0 < Real.exp (D * Real.log (1 / 2)) * N := mul_pos hE hNp
  nlinarith [mul_lt_mul_of_pos_left hlt hEN, mul_pos hEN hwL]

/-- Four sites, blocks of two, a thousand temperature steps. -/
example : ∃ w : ℝ, 0 < w ∧ ¬ AISUnbiased (Ω := fun _ : BlockState => HBDraw 2 2) (validStates 2 4)
    (siteScore w 1000 (0 : Fin 4)) 1000 (fun k => hbDrawLaw (siteScore w 1000 (0 : Fin 4) ((k + 1 : ℕ) / ((1000 : ℕ) : ℝ))) 2 2 2)
    (fun _ => hbMove 2 2) blockInit := by
  obtain ⟨w, h0, -, h⟩ := hb_ais_biased (D := 4) (le_refl 2) (i := 0) (by norm_num)
  exact ⟨w, h0, fun hu => absurd hu (h 1000 (by norm_num)).ne⟩

end Discs
