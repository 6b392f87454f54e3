import Mathlib.Analysis.SpecialFunctions.Pow.Real
import Verif.Props.AdaptiveD
import Verif.Props.Float32Categ
import Verif.Props.InitSamples

/-!
# Property C88 for adaptive categorical DMALA and DLMC

As for binary samples (`Props.AdaptiveD`): on a smooth model that makes one value of one site half as likely as
the others, and whose gradient vanishes at every sample, the proposals are symmetric and two steps of a run are
computed exactly.
-/

namespace Discs

open Finset Spec

variable {D C : ℕ}

/-! ## The model -/

/-- Weight of one value of one site: a polynomial in the entry of the one-hot vector. -/
noncomputable def halfModel (i : Fin D) (k₀ : Fin C) (x : Fin D → Fin C → ℝ) : ℝ :=
  Real.log (1 / 2) * (3 * x i k₀ ^ 2 - 2 * x i k₀ ^ 3)

/-- Its gradient. -/
noncomputable def halfGrad (i : Fin D) (k₀ : Fin C) (x : Fin D → Fin C → ℝ) (j : Fin D) (k : Fin C) : ℝ :=
  if j = i ∧ k = k₀ then Real.log (1 / 2) * (6 * x i k₀ - 6 * x i k₀ ^ 2) else 0

/-- `halfGrad` holds the partial derivatives of `halfModel`. -/
theorem halfGrad_deriv (i : Fin D) (k₀ : Fin C) (x : Fin D → Fin C → ℝ) (j : Fin D) (k : Fin C) :
    HasDerivAt (fun t => halfModel i k₀ (Function.update x j (Function.update (x j) k t)))
      (halfGrad i k₀ x j k) (x j k) := by
  unfold halfModel halfGrad
  by_cases h : j = i ∧ k = k₀
  · obtain ⟨rfl, rfl⟩ := h
    simp only [Function.update_self, and_self, if_true]
    have h1 := ((hasDerivAt_pow 2 (x j k)).const_mul 3).sub ((hasDerivAt_pow 3 (x j k)).const_mul 2)
    exact (h1.const_mul (Real.log (1 / 2))).congr_deriv (by push_cast; ring)
  · rw [if_neg h]
    have e : ∀ t, Function.update x j (Function.update (x j) k t) i k₀ = x i k₀ := by
      intro t
      by_cases hj : i = j
      · subst hj
        have hk : k₀ ≠ k := fun e => h ⟨rfl, e.symm⟩
        simp [Function.update_of_ne hk]
      · rw [Function.update_of_ne hj]
    simp only [e]
    exact hasDerivAt_const _ _

theorem halfModel_row (i : Fin D) (k₀ : Fin C) (v : Fin D → Fin C) :
    halfModel i k₀ (oneHotRow C (categRow v)) = if v i = k₀ then Real.log (1 / 2) else 0 := by
  unfold halfModel
  rw [oneHot_categRow]
  by_cases h : v i = k₀
  · rw [if_pos h, if_pos h.symm]; norm_num
  · rw [if_neg h, if_neg (Ne.symm h)]; norm_num

theorem halfGrad_row (i : Fin D) (k₀ : Fin C) (v : Fin D → Fin C) (j : Fin D) (k : Fin C) :
    halfGrad i k₀ (oneHotRow C (categRow v)) j k = 0 := by
  unfold halfGrad
  rw [oneHot_categRow]
  split_ifs <;> norm_num

theorem deltaCateg_half (i : Fin D) (k₀ : Fin C) (v : Fin D → Fin C) (j : Fin D) (k : Fin C) :
    deltaCateg (halfGrad i k₀) (oneHotRow C (categRow v)) j k = 0 := by
  simp [deltaCateg, halfGrad_row]

/-! ## Symmetric redraws -/

/-- One-site marginal of independent categorical draws. -/
theorem categLaw_marginal (l : Fin D → Fin C → ℝ) (hC : 0 < C) (i : Fin D) (u : Fin C → ℝ) :
    ∑ v, categLaw l v * u (v i) = ∑ k, softmax (l i) k * u k := by
  have : Nonempty (Fin C) := ⟨⟨0, hC⟩⟩
  have h := Fintype.prod_sum (f := fun (j : Fin D) (k : Fin C) => softmax (l j) k * if j = i then u k else 1)
  have h2 : ∀ v : Fin D → Fin C, categLaw l v * u (v i) =
      ∏ j, softmax (l j) (v j) * if j = i then u (v j) else 1 := by
    intro v
    rw [Finset.prod_mul_distrib, Finset.prod_ite_eq' Finset.univ i]
    simp [categLaw]
  simp only [h2]
  rw [← h, Finset.prod_eq_single i]
  · simp
  · intro j _ hj
    simp [hj, (isProb_softmax (l j)).2]
  · simp

/-- Logits that only tell the current value from the others. -/
def stayLogits (A B : ℝ) (w : Fin D → Fin C) (j : Fin D) (k : Fin C) : ℝ := if k = w j then A else B

theorem sum_stay {a b : ℝ} (w : Fin C) : ∑ k, (if k = w then a else b) = a + (C - 1) * b := by
  have h : ∀ k : Fin C, (if k = w then a else b) = (if k = w then a - b else 0) + b := by
    intro k; split_ifs <;> ring
  simp only [h, Finset.sum_add_distrib, Finset.sum_ite_eq', Finset.mem_univ, if_true, Finset.sum_const,
    Finset.card_univ, Fintype.card_fin, nsmul_eq_mul]
  ring

/-- Probability of each other value. -/
noncomputable def moveProb (C : ℕ) (A B : ℝ) : ℝ := Real.exp B / (Real.exp A + (C - 1) * Real.exp B)

theorem stay_total (hC : 0 < C) (A B : ℝ) : 0 < Real.exp A + (C - 1) * Real.exp B := by
  have : (1 : ℝ) ≤ C := by exact_mod_cast hC
  have := mul_nonneg (sub_nonneg.2 this) (Real.exp_pos B).le
  linarith [Real.exp_pos A]

theorem moveProb_mem (hC : 0 < C) (A B : ℝ) : 0 ≤ moveProb C A B ∧ (C - 1) * moveProb C A B ≤ 1 := by
  have h := stay_total hC A B
  refine ⟨div_nonneg (Real.exp_pos _).le h.le, ?_⟩
  unfold moveProb
  rw [← mul_div_assoc, div_le_one h]
  linarith [Real.exp_pos A]

theorem exp_stay (A B : ℝ) (w : Fin D → Fin C) (j : Fin D) (k : Fin C) :
    Real.exp (stayLogits A B w j k) = if k = w j then Real.exp A else Real.exp B := by
  unfold stayLogits; split_ifs <;> rfl

theorem softmax_stay (hC : 0 < C) (A B : ℝ) (w : Fin D → Fin C) (j : Fin D) (k : Fin C) :
    softmax (stayLogits A B w j) k = if k = w j then 1 - (C - 1) * moveProb C A B else moveProb C A B := by
  have h := stay_total hC A B
  unfold softmax moveProb
  simp only [exp_stay, sum_stay]
  split_ifs
  · field_simp; ring
  · rfl

theorem logSoftmax_stay (A B : ℝ) (w : Fin D → Fin C) (j : Fin D) (k : Fin C) :
    logSoftmax (stayLogits A B w j) k =
      (if k = w j then A else B) - Real.log (Real.exp A + (C - 1) * Real.exp B) := by
  unfold logSoftmax logsumexp
  simp only [exp_stay, sum_stay]
  rfl

/-- The two proposals of a move have the same probability. -/
theorem categLl_stay (A B : ℝ) (w v : Fin D → Fin C) :
    categLl (stayLogits A B v) (oneHotRow C (categRow w)) = categLl (stayLogits A B w) (oneHotRow C (categRow v)) := by
  rw [categLl_oneHot, categLl_oneHot]
  refine Finset.sum_congr rfl fun j _ => ?_
  rw [logSoftmax_stay, logSoftmax_stay]
  simp only [eq_comm]

/-! ## The process of one site -/

/-- Probability that the site holds the rare value after some steps, started with (`true`) or without it: `P r`
is the probability that a given other value is proposed, `b` that the rare value is accepted. -/
noncomputable def halfRun {R : Type*} (C : ℕ) (b : ℝ) (P : R → ℝ) (next : R → ℝ → R) : ℕ → R → Bool → ℝ
  | 0, _, v => if v then 1 else 0
  | n + 1, r, true => (C - 1) * P r * halfRun C b P next n (next r 1) false +
      (1 - (C - 1) * P r) * halfRun C b P next n (next r 1) true
  | n + 1, r, false => P r * (b * halfRun C b P next n (next r (1 / 2)) true +
      (1 - b) * halfRun C b P next n (next r (1 / 2)) false) + (1 - P r) * halfRun C b P next n (next r 1) false

/-- Two steps, weighted by the target. -/
theorem halfRun_two {R : Type*} (τ : ℝ) (P : R → ℝ) (next : R → ℝ → R) (r : R) :
    1 / 2 * halfRun C (1 / 2 - τ) P next 2 r true + (C - 1) * halfRun C (1 / 2 - τ) P next 2 r false =
      1 / 2 + (C - 1) * P r / 2 * (C - 3 / 2) * (P (next r 1) - P (next r (1 / 2))) -
        τ * ((C - 1) * P r * (1 - (C - 1) * P (next r (1 / 2))) + τ * ((C - 1) * P r * P (next r (1 / 2))) +
          (1 - P r) * ((C - 1) * P (next r 1)) + (C - 1) * P r * P (next r 1) / 2) := by
  simp only [halfRun, if_true, Bool.false_eq_true, if_false]
  ring

/-- The bias outweighs the offset of the acceptance test. -/
theorem halfRun_two_ne {R : Type*} {τ : ℝ} {P : R → ℝ} {next : R → ℝ → R} {r : R} (hC : 2 ≤ C)
    (hP : ∀ r, 0 ≤ P r ∧ (C - 1) * P r ≤ 1) (hτ : 0 ≤ τ) (hτ1 : τ ≤ 1)
    (h : 16 * τ < P r * (P (next r 1) - P (next r (1 / 2)))) :
    1 / 2 * halfRun C (1 / 2 - τ) P next 2 r true + (C - 1) * halfRun C (1 / 2 - τ) P next 2 r false ≠ 1 / 2 := by
  rw [halfRun_two]
  have hCr : (2 : ℝ) ≤ C := by exact_mod_cast hC
  obtain ⟨a0, a1⟩ := hP r
  obtain ⟨b0, b1⟩ := hP (next r 1)
  obtain ⟨c0, c1⟩ := hP (next r (1 / 2))
  set p := P r
  set q := P (next r 1)
  set q' := P (next r (1 / 2))
  set E := (C : ℝ) - 1 with hE
  have hE1 : 1 ≤ E := by linarith
  have le1 : ∀ y, 0 ≤ y → E * y ≤ 1 → y ≤ 1 := fun y h0 h1 => by nlinarith
  have p1 := le1 p a0 a1
  have q1 := le1 q b0 b1
  have q1' := le1 q' c0 c1
  have Ep : 0 ≤ E * p := mul_nonneg (by linarith) a0
  have Eq : 0 ≤ E * q := mul_nonneg (by linarith) b0
  have Eq' : 0 ≤ E * q' := mul_nonneg (by linarith) c0
  have t1 : E * p * (1 - E * q') ≤ 1 := mul_le_one₀ a1 (by linarith) (by linarith)
  have t2 : E * p * q' ≤ 1 := mul_le_one₀ a1 c0 q1'
  have t2' : 0 ≤ E * p * q' := mul_nonneg Ep c0
  have t2'' : τ * (E * p * q') ≤ 1 := mul_le_one₀ hτ1 t2' t2
  have t3 : (1 - p) * (E * q) ≤ 1 := mul_le_one₀ (by linarith) Eq b1
  have t4 : E * p * q ≤ 1 := mul_le_one₀ a1 b0 q1
  have hQ : E * p * (1 - E * q') + τ * (E * p * q') + (1 - p) * (E * q) + E * p * q / 2 ≤ 4 := by linarith
  have hbias : p * (q - q') ≤ 4 * (E * p / 2 * (C - 3 / 2) * (q - q')) := by
    have hpos : 0 ≤ p * (q - q') := by linarith
    have e : 4 * (E * p / 2 * (C - 3 / 2) * (q - q')) = (2 * E * (C - 3 / 2)) * (p * (q - q')) := by ring
    rw [e]
    have : 1 ≤ 2 * E * (C - 3 / 2) := by nlinarith
    nlinarith
  have := mul_le_mul_of_nonneg_left hQ hτ
  intro hh
  linarith

/-- What a step does: either it stays, or it redraws all sites with symmetric probabilities and tests the
difference of the model's values. -/
structure HalfSampler (c : DCfg) (tiny : ℝ) (i : Fin D) (k₀ : Fin C) (tau : DState → Option ℝ) (A B : ℝ → ℝ)
    (loc : DStats) (p : DState → (Fin D → ℤ) → (Fin D → Fin C) → ℝ)
    (move : DState → (Fin D → ℤ) → (Fin D → Fin C) → ℝ → (Fin D → ℤ) × DState) : Prop where
  law_none : ∀ s (w : Fin D → Fin C), tau s = none → ∑ v, p s (categRow w) v = 1
  law_some : ∀ s (w : Fin D → Fin C) t, tau s = some t → p s (categRow w) = categLaw (stayLogits (A t) (B t) w)
  move_none : ∀ s (w v : Fin D → Fin C) u, tau s = none → move s (categRow w) v u = (categRow w, dSelectState c s none loc)
  move_acc : ∀ s (w v : Fin D → Fin C) u t, tau s = some t →
    bernoulliLogp tiny u (halfModel i k₀ (oneHotRow C (categRow v)) - halfModel i k₀ (oneHotRow C (categRow w))) →
    (move s (categRow w) v u).1 = categRow v
  move_rej : ∀ s (w v : Fin D → Fin C) u t, tau s = some t →
    ¬ bernoulliLogp tiny u
      (halfModel i k₀ (oneHotRow C (categRow v)) - halfModel i k₀ (oneHotRow C (categRow w))) →
    (move s (categRow w) v u).1 = categRow w
  state : ∀ s (w v : Fin D → Fin C) u t, tau s = some t → (move s (categRow w) v u).2 = dSelectState c s (some (Real.exp (clipMax
    (halfModel i k₀ (oneHotRow C (categRow v)) - halfModel i k₀ (oneHotRow C (categRow w))) 0))) loc

/-- The sampler is the process of one site. -/
theorem HalfSampler.run {c : DCfg} {tiny : ℝ} (ht : 0 ≤ tiny) (ht4 : tiny ≤ 1 / 4) (hC : 0 < C) {i : Fin D}
    {k₀ : Fin C} {tau : DState → Option ℝ} {A B : ℝ → ℝ} {loc : DStats}
    {p : DState → (Fin D → ℤ) → (Fin D → Fin C) → ℝ}
    {move : DState → (Fin D → ℤ) → (Fin D → Fin C) → ℝ → (Fin D → ℤ) × DState}
    (H : HalfSampler c tiny i k₀ tau A B loc p move) : ∀ (n : ℕ) (s : DState) (w : Fin D → Fin C),
      adaptiveExpect (Ω := fun _ : DState => Fin D → Fin C) p move
        (fun x => if x i = ((k₀ : ℕ) : ℤ) then 1 else 0) n s (categRow w) =
      halfRun C (1 / 2 - tiny) (dSiteProb tau fun t => moveProb C (A t) (B t)) (dSiteNext c tau loc) n s
        (decide (w i = k₀)) := by
  obtain ⟨hb, hb'⟩ := acceptProb_half ht ht4
  have hv : ∀ v : Fin D → Fin C, categRow v i = ((k₀ : ℕ) : ℤ) ↔ v i = k₀ := by
    intro v
    unfold categRow
    rw [Nat.cast_inj, Fin.ext_iff]
  intro n
  induction n with
  | zero => intro s w; simp [adaptiveExpect, halfRun, hv]
  | succ n ih =>
    intro s w
    set V := halfRun C (1 / 2 - tiny) (dSiteProb tau fun t => moveProb C (A t) (B t)) (dSiteNext c tau loc) n
      with hV
    have ih' : ∀ s, ∀ y ∈ validStates C D, adaptiveExpect (Ω := fun _ : DState => Fin D → Fin C) p move
        (fun x => if x i = ((k₀ : ℕ) : ℤ) then 1 else 0) n s y = V s (decide (y i = ((k₀ : ℕ) : ℤ))) := by
      intro s y hy
      obtain ⟨v, rfl⟩ := exists_categRow hy
      rw [ih s v]
      simp only [hv]
    cases hs : tau s with
    | none =>
      have e : adaptiveExpect (Ω := fun _ : DState => Fin D → Fin C) p move
          (fun x => if x i = ((k₀ : ℕ) : ℤ) then 1 else 0) (n + 1) s (categRow w) =
          V (dSelectState c s none loc) (decide (w i = k₀)) := by
        rw [adaptiveExpect]
        simp only [H.move_none s w _ _ hs, ih]
        rw [← Finset.sum_mul, H.law_none s w hs, one_mul, MeasureTheory.setIntegral_const]
        simp
      rw [e]
      cases decide (w i = k₀) <;> simp [halfRun, dSiteProb, dSiteNext, hs, hV]
    | some t =>
      set l := fun v : Fin D → Fin C => halfModel i k₀ (oneHotRow C (categRow v)) -
        halfModel i k₀ (oneHotRow C (categRow w)) with hl
      rw [adaptiveExpect_succ_valid (Ω := fun _ : DState => Fin D → Fin C) ht (S := validStates C D)
        (m := fun v => categRow v) (l := l)
        (F := fun v y => V (dSelectState c s (some (Real.exp (clipMax (l v) 0))) loc)
          (decide (y i = ((k₀ : ℕ) : ℤ))))
        (fun v u hacc => H.move_acc s w v u t hs hacc) (fun v u hrej => H.move_rej s w v u t hs hrej)
        (categRow_valid w) (fun v => categRow_valid v)
        (fun v u y hy => by rw [ih' _ y hy, H.state s w v u t hs])]
      simp only [hv, H.law_some s w t hs, hl, halfModel_row]
      have hlog : Real.log (1 / 2) ≤ 0 := Real.log_nonpos (by norm_num) (by norm_num)
      have hP : dSiteProb tau (fun t => moveProb C (A t) (B t)) s = moveProb C (A t) (B t) := by
        simp [dSiteProb, hs]
      have hN : ∀ a, dSelectState c s (some a) loc = dSiteNext c tau loc s a := by
        intro a; simp [dSiteNext, hs]
      simp only [hN]
      by_cases hw : w i = k₀
      · simp only [hw, if_true, decide_true]
        refine Eq.trans (Finset.sum_congr rfl fun v _ => ?_) ((categLaw_marginal (stayLogits (A t) (B t) w) hC i
          fun k => if k = k₀ then V (dSiteNext c tau loc s 1) true else V (dSiteNext c tau loc s 1) false).trans ?_)
        rotate_left
        · simp only [softmax_stay hC, hw]
          rw [Finset.sum_congr rfl (g := fun k => if k = k₀ then
            (1 - (C - 1) * moveProb C (A t) (B t)) * V (dSiteNext c tau loc s 1) true else
            moveProb C (A t) (B t) * V (dSiteNext c tau loc s 1) false) (fun k _ => by split_ifs <;> rfl),
            sum_stay]
          simp only [halfRun, hP]
          ring
        · congr 1
          by_cases hvk : v i = k₀
          · simp [hvk, clipMax]; ring
          · have : min (-Real.log (1 / 2)) 0 = 0 := min_eq_right (by linarith)
            simp only [hvk, if_false, decide_false, zero_sub, clipMax, this, Real.exp_zero, hb']
            ring
      · simp only [hw, if_false, decide_false, sub_zero]
        refine Eq.trans (Finset.sum_congr rfl fun v _ => ?_) ((categLaw_marginal (stayLogits (A t) (B t) w) hC i
          fun k => if k = k₀ then (1 / 2 - tiny) * V (dSiteNext c tau loc s (1 / 2)) true +
            (1 - (1 / 2 - tiny)) * V (dSiteNext c tau loc s (1 / 2)) false
            else V (dSiteNext c tau loc s 1) false).trans ?_)
        rotate_left
        · simp only [softmax_stay hC]
          have hsum : ∑ k, (if k = w i then 1 - (C - 1) * moveProb C (A t) (B t) else moveProb C (A t) (B t)) =
              1 := by rw [sum_stay]; ring
          have hk : ∀ S X Y : ℝ, ∀ k : Fin C, S * (if k = k₀ then X else Y) =
              S * Y + if k = k₀ then S * (X - Y) else 0 := by
            intro S X Y k; split_ifs <;> ring
          simp only [hk, Finset.sum_add_distrib, ← Finset.sum_mul, hsum, Finset.sum_ite_eq', Finset.mem_univ,
            if_true, if_neg (Ne.symm hw)]
          simp only [halfRun, hP]
          ring
        · congr 1
          by_cases hvk : v i = k₀
          · have : min (Real.log (1 / 2)) 0 = Real.log (1 / 2) := min_eq_left hlog
            have h2 : Real.exp (Real.log (1 / 2)) = 1 / 2 := Real.exp_log (by norm_num)
            simp only [hvk, if_true, decide_true, clipMax, this, h2, hb]
          · simp only [hvk, if_false, decide_false, clipMax, min_self, Real.exp_zero]
            ring

/-! ## The target -/

theorem sum_validStates_categ (F : (Fin D → ℤ) → ℝ) :
    ∑ x ∈ validStates C D, F x = ∑ v : Fin D → Fin C, F (categRow v) := by
  symm
  refine Finset.sum_bij (fun v _ => categRow v) (fun v _ => categRow_valid v)
    (fun v _ v' _ h => categRow_injective h) (fun x hx => ?_) (fun v _ => rfl)
  obtain ⟨v, rfl⟩ := exists_categRow hx
  exact ⟨v, Finset.mem_univ _, rfl⟩

/-- A sum over all rows of a function of one site. -/
theorem sum_site_categ (hC : 0 < C) (i : Fin D) (φ : Fin C → ℝ) :
    ∑ v : Fin D → Fin C, φ (v i) = (C : ℝ) ^ D / C * ∑ k, φ k := by
  have hCr : (C : ℝ) ≠ 0 := by exact_mod_cast hC.ne'
  have h := categLaw_marginal (fun (_ : Fin D) (_ : Fin C) => (0 : ℝ)) hC i φ
  have e1 : ∀ v : Fin D → Fin C, categLaw (fun (_ : Fin D) (_ : Fin C) => (0 : ℝ)) v = (1 / (C : ℝ)) ^ D := by
    intro v; simp [categLaw, softmax]
  have e2 : ∀ k : Fin C, softmax (fun _ : Fin C => (0 : ℝ)) k = 1 / C := by intro k; simp [softmax]
  simp only [e1, e2, ← Finset.mul_sum] at h
  rw [div_mul_eq_mul_div, eq_div_iff hCr]
  have hp : (C : ℝ) ^ D ≠ 0 := pow_ne_zero _ hCr
  rw [div_pow, one_pow, div_mul_eq_mul_div, one_mul, div_eq_iff hp] at h
  rw [h]
  field_simp

/-- A sampler that keeps the target keeps the weight of the rare value. -/
theorem half_of_keeps (hC : 0 < C) {i : Fin D} {k₀ : Fin C} {n : ℕ} {s₀ : DState} {V : Bool → ℝ}
    {p : DState → (Fin D → ℤ) → (Fin D → Fin C) → ℝ}
    {move : DState → (Fin D → ℤ) → (Fin D → Fin C) → ℝ → (Fin D → ℤ) × DState}
    (hV : ∀ w : Fin D → Fin C, adaptiveExpect (Ω := fun _ : DState => Fin D → Fin C) p move
        (fun x => if x i = ((k₀ : ℕ) : ℤ) then 1 else 0) n s₀ (categRow w) = V (decide (w i = k₀)))
    (hk : KeepsTarget (Ω := fun _ : DState => Fin D → Fin C) (validStates C D)
      (fun x => Real.exp (halfModel i k₀ (oneHotRow C x))) p move s₀) :
    1 / 2 * V true + (C - 1) * V false = 1 / 2 := by
  have hCr : (0 : ℝ) < C := by exact_mod_cast hC
  have hk2 := hk (fun x => if x i = ((k₀ : ℕ) : ℤ) then 1 else 0) n
  rw [sum_validStates_categ, sum_validStates_categ] at hk2
  have e : Real.exp (Real.log (1 / 2)) = 1 / 2 := Real.exp_log (by norm_num)
  have h1 : ∀ w : Fin D → Fin C, Real.exp (halfModel i k₀ (oneHotRow C (categRow w))) *
      adaptiveExpect (Ω := fun _ : DState => Fin D → Fin C) p move
        (fun x => if x i = ((k₀ : ℕ) : ℤ) then 1 else 0) n s₀ (categRow w) =
      (fun k => if k = k₀ then 1 / 2 * V true else V false) (w i) := by
    intro w
    rw [hV w, halfModel_row]
    by_cases h : w i = k₀
    · simp only [h, if_true, decide_true, e]
    · simp [h]
  have h2 : ∀ w : Fin D → Fin C, Real.exp (halfModel i k₀ (oneHotRow C (categRow w))) *
      (if categRow w i = ((k₀ : ℕ) : ℤ) then 1 else 0) = (fun k => if k = k₀ then 1 / 2 else 0) (w i) := by
    intro w
    have hv : categRow w i = ((k₀ : ℕ) : ℤ) ↔ w i = k₀ := by unfold categRow; rw [Nat.cast_inj, Fin.ext_iff]
    rw [halfModel_row]
    by_cases h : w i = k₀
    · simp only [h, hv, if_true, e, mul_one]
    · simp [h, hv]
  rw [Finset.sum_congr rfl fun w _ => h1 w, Finset.sum_congr rfl fun w _ => h2 w,
    sum_site_categ hC i fun k => if k = k₀ then 1 / 2 * V true else V false,
    sum_site_categ hC i fun k => if k = k₀ then 1 / 2 else 0, sum_stay, sum_stay] at hk2
  have hp : (C : ℝ) ^ D / C ≠ 0 := by positivity
  have := mul_left_cancel₀ hp hk2
  linarith

/-- The target is lost within two steps when the probabilities of a move after acceptance ratios 1 and 1/2 differ
by more than the offset of the acceptance test can hide. -/
theorem HalfSampler.not_kept {c : DCfg} (hc : c.adapts) (hz : 1 < c.scheduleStep ∨ c.resetZ ≤ 0)
    (htgt : c.target ≤ 1) {tau : DState → Option ℝ} {A B Q : ℝ → ℝ} {loc : DStats} {N k : ℝ} (hN : 0 < N)
    (hk : 0 < k) (hloc : loc.logZ = Real.log N) (hloc' : loc.logTau = Real.log k - Real.log N)
    (htau : tau dInit = some loc.logTau) (htau' : ∀ s : DState, s.steps ≠ 0 → tau s = s.logTau)
    (hC : 2 ≤ C) (hQ : ∀ m, 0 < m → moveProb C (A (Real.log m - Real.log N)) (B (Real.log m - Real.log N)) = Q m)
    {tiny : ℝ} (ht : 0 ≤ tiny) (ht4 : tiny ≤ 1 / 4)
    (hsmall : 16 * tiny < Q k * (Q (dAim N c.target 1) - Q (dAim N c.target (1 / 2)))) {i : Fin D} {k₀ : Fin C}
    {p : DState → (Fin D → ℤ) → (Fin D → Fin C) → ℝ}
    {move : DState → (Fin D → ℤ) → (Fin D → Fin C) → ℝ → (Fin D → ℤ) × DState}
    (H : HalfSampler c tiny i k₀ tau A B loc p move) :
    ¬ KeepsTarget (Ω := fun _ : DState => Fin D → Fin C) (validStates C D)
      (fun x => Real.exp (halfModel i k₀ (oneHotRow C x))) p move dInit := by
  intro hkeep
  have hC0 : 0 < C := by omega
  have hr := half_of_keeps hC0 (H.run ht ht4 hC0 2 dInit) hkeep
  have hq : ∀ t, 0 ≤ moveProb C (A t) (B t) ∧ (C - 1) * moveProb C (A t) (B t) ≤ 1 := fun t => moveProb_mem hC0 _ _
  have hQ0 : ∀ m, 0 < m → 0 ≤ Q m := fun m hm => by rw [← hQ m hm]; exact (hq _).1
  have h1 := (dSite_next_prob (q := fun t => moveProb C (A t) (B t)) hc hz hN hloc htau htau' hQ hQ0 1).1
    (by nlinarith)
  have h2 := (dSite_next_prob (q := fun t => moveProb C (A t) (B t)) hc hz hN hloc htau htau' hQ hQ0 (1 / 2)).2
  have h3 : dSiteProb tau (fun t => moveProb C (A t) (B t)) dInit = Q k := by
    unfold dSiteProb
    rw [htau, hloc']
    exact hQ k hk
  refine halfRun_two_ne (r := dInit) hC (fun s => ?_) ht (by linarith) ?_ hr
  · unfold dSiteProb
    cases tau s with
    | none => simp
    | some t => exact hq t
  · rw [h1, h3]
    refine hsmall.trans_le (mul_le_mul_of_nonneg_left (by linarith) (hQ0 k hk))

/-! ## DMALA -/

/-- One step of categorical DMALA (`dmala.py:84-117`), one chain: next sample and next state. -/
noncomputable def dmalaCategMove (c : DCfg) (tiny : ℝ) (h : ℝ → ℝ) (f : (Fin D → Fin C → ℝ) → ℝ)
    (g : (Fin D → Fin C → ℝ) → Fin D → Fin C → ℝ) (s : DState) (x : Fin D → ℤ) (v : Fin D → Fin C) (u : ℝ) :
    (Fin D → ℤ) × DState :=
  let r := dmalaCategStep c tiny h C f g (fun _ : Fin 1 => x) (fun _ => v) (fun _ => u) s
  (r.1 0, r.2.1)

/-- Statistics of a batch whose gradient is zero. -/
theorem dmalaReset_categ (h : ℝ → ℝ) (i : Fin D) (k₀ : Fin C) (w : Fin D → Fin C) :
    (dmalaReset (I := Fin D × Fin C) fun (_ : Fin 1) a =>
      h (deltaCateg (halfGrad i k₀) (oneHotRow C (categRow w)) a.1 a.2)) = dmalaLoc0 (D * C) h := by
  simp only [deltaCateg_half, dmalaLoc0_eq]
  simp [dmalaReset, meanB]

/-- Logits of DMALA when the gradient is zero: the value of the site and another value. -/
noncomputable def dmalaStay (C : ℕ) (h0 t : ℝ) : ℝ := -Real.log (1 + (C - 1) * Real.exp (t + h0))

noncomputable def dmalaGo (C : ℕ) (h0 t : ℝ) : ℝ := t + h0 - Real.log (1 + (C - 1) * Real.exp (t + h0))

theorem dmalaCategDist_half (t h0 : ℝ) (w : Fin D → Fin C) (j : Fin D) :
    dmalaCategDist t (fun _ => h0) (oneHotRow C (categRow w) j) =
      stayLogits (dmalaStay C h0 t) (dmalaGo C h0 t) w j := by
  funext k
  have e : (fun k => (t + h0) * (1 - oneHotRow C (categRow w) j k)) = stayLogits 0 (t + h0) w j := by
    funext k
    rw [oneHot_categRow]
    unfold stayLogits
    split_ifs <;> ring
  unfold dmalaCategDist
  rw [e, logSoftmax_stay, Real.exp_zero]
  unfold stayLogits dmalaStay dmalaGo
  split_ifs <;> ring

theorem dmalaCateg_prob (hC : 0 < C) (t h0 : ℝ) :
    moveProb C (dmalaStay C h0 t) (dmalaGo C h0 t) = Real.exp (t + h0) / (1 + (C - 1) * Real.exp (t + h0)) := by
  have hp : 0 < 1 + ((C : ℝ) - 1) * Real.exp (t + h0) := by
    have := stay_total hC 0 (t + h0); rwa [Real.exp_zero] at this
  unfold moveProb dmalaStay dmalaGo
  rw [Real.exp_neg, Real.exp_sub, Real.exp_log hp]
  field_simp

theorem dmalaCateg_half {c : DCfg} (hc : c.adapts) (tiny : ℝ) (h : ℝ → ℝ) (hC : 2 < C) (i : Fin D) (k₀ : Fin C) :
    HalfSampler c tiny i k₀ (fun s => dmalaLogTau c s (dmalaLoc0 (D * C) h)) (dmalaStay C (h 0))
      (dmalaGo C (h 0)) (dmalaLoc0 (D * C) h)
      (fun s x => dmalaCategLaw c h (halfGrad i k₀) s (oneHotRow C x))
      (dmalaCategMove c tiny h (halfModel i k₀) (halfGrad i k₀)) := by
  have : Nonempty (Fin C) := ⟨k₀⟩
  have hr : (c.adaptive && c.coOpt) = false := by simp [hc.2]
  have hacc : ∀ (w v : Fin D → Fin C) t, halfModel i k₀ (oneHotRow C (categRow v)) +
      categLl (stayLogits (dmalaStay C (h 0) t) (dmalaGo C (h 0) t) v) (oneHotRow C (categRow w)) -
      halfModel i k₀ (oneHotRow C (categRow w)) -
      categLl (stayLogits (dmalaStay C (h 0) t) (dmalaGo C (h 0) t) w) (oneHotRow C (categRow v)) =
      halfModel i k₀ (oneHotRow C (categRow v)) - halfModel i k₀ (oneHotRow C (categRow w)) := by
    intro w v t; rw [categLl_stay]; ring
  have hstep : ∀ s (w v : Fin D → Fin C) u t, dmalaLogTau c s (dmalaLoc0 (D * C) h) = some t →
      dmalaCategMove c tiny h (halfModel i k₀) (halfGrad i k₀) s (categRow w) v u =
      (argmaxRow ((mhStep tiny (fun _ : Fin 1 => u)
        (fun _ => halfModel i k₀ (oneHotRow C (categRow v)) - halfModel i k₀ (oneHotRow C (categRow w)))
        (fun _ => oneHotRow C (categRow w)) (fun _ => oneHotRow C (categRow v))).1 0),
        dSelectState c s (some (Real.exp (clipMax
          (halfModel i k₀ (oneHotRow C (categRow v)) - halfModel i k₀ (oneHotRow C (categRow w))) 0)))
          (dmalaLoc0 (D * C) h)) := by
    intro s w v u t hs
    unfold dmalaCategMove dmalaCategStep
    simp only [dmalaReset_categ, hs]
    simp only [dmalaLogTauRev, hr, Bool.false_eq_true, if_false, deltaCateg_half, gt_iff_lt, hC, if_true]
    have e : ∀ w : Fin D → Fin C, (fun j => dmalaCategDist t (fun _ => h 0) (oneHotRow C (categRow w) j)) =
        stayLogits (dmalaStay C (h 0) t) (dmalaGo C (h 0) t) w := fun w => funext fun j => dmalaCategDist_half t _ w j
    simp only [e, hacc, dAcc_one]
  constructor
  · intro s w hs
    simp only [dmalaCategLaw, dmalaCategTau1, dmalaReset_categ, hs]
    exact (isProb_categLaw (by omega) _).2
  · intro s w t hs
    simp only [dmalaCategLaw, dmalaCategTau1, dmalaReset_categ, hs]
    simp only [deltaCateg_half]
    congr 1
    exact funext fun j => dmalaCategDist_half t _ w j
  · intro s w v u hs
    unfold dmalaCategMove dmalaCategStep
    simp only [dmalaReset_categ, hs, argmaxRow_oneHotRow (categRow_valid w)]
  · intro s w v u t hs hb
    rw [hstep s w v u t hs, mhStep_one, if_pos hb, argmaxRow_oneHotRow (categRow_valid v)]
  · intro s w v u t hs hb
    rw [hstep s w v u t hs, mhStep_one, if_neg hb, argmaxRow_oneHotRow (categRow_valid w)]
  · intro s w v u t hs
    rw [hstep s w v u t hs]

/-- Probability of a move of DMALA when `m` flips are requested. -/
theorem dmalaCateg_aim (hD : 0 < D) (hC : 0 < C) (h0 m : ℝ) (hm : 0 < m) :
    moveProb C (dmalaStay C h0 (Real.log m - Real.log ((D * C : ℕ) * Real.exp h0)))
      (dmalaGo C h0 (Real.log m - Real.log ((D * C : ℕ) * Real.exp h0))) = m / ((D * C : ℕ) + (C - 1) * m) := by
  have hK : (0 : ℝ) < (D * C : ℕ) := by exact_mod_cast Nat.mul_pos hD hC
  have hCr : (1 : ℝ) ≤ C := by exact_mod_cast hC
  have hp : 0 < ((D * C : ℕ) : ℝ) + (C - 1) * m := by
    have := mul_nonneg (sub_nonneg.2 hCr) hm.le; linarith
  rw [dmalaCateg_prob hC, exp_neg_exp_zero (Nat.mul_pos hD hC) _ _ hm]
  have h2 : 0 < 1 + ((C : ℝ) - 1) * (m / (D * C : ℕ)) := by
    have := mul_nonneg (sub_nonneg.2 hCr) (div_pos hm hK).le; linarith
  rw [div_eq_div_iff h2.ne' hp.ne']
  field_simp

/-- Probabilities of a move of DMALA after acceptance ratios 1 and 1/2. -/
theorem dmalaCateg_gap (hC : 2 ≤ C) {K N t : ℝ} (hK : 1 ≤ K) (hN : 1 ≤ N) (hNK : N ≤ K) (ht0 : 0 ≤ t) (ht1 : t < 1) :
    3 * min (1 - t) (1 / 2) / (16 * (C : ℝ) ^ 2 * K) ≤
      dAim N t 1 / (K + (C - 1) * dAim N t 1) - dAim N t (1 / 2) / (K + (C - 1) * dAim N t (1 / 2)) := by
  have hCr : (2 : ℝ) ≤ C := by exact_mod_cast hC
  set δ := min (1 - t) (1 / 2) with hδ
  have hδ1 : δ ≤ 1 - t := min_le_left _ _
  have hδ2 : δ ≤ 1 / 2 := min_le_right _ _
  have hδ0 : 0 < δ := lt_min (by linarith) (by norm_num)
  have e1 : dAim N t 1 = N + 3 * (1 - t) := max_eq_right (by linarith)
  have e2 : dAim N t (1 / 2) ≤ dAim N t 1 - 3 * δ := by
    rw [e1]
    exact max_le (by linarith) (by linarith)
  have e3 : 1 ≤ dAim N t (1 / 2) := le_max_left _ _
  set m₁ := dAim N t 1 with hm1
  set m₂ := dAim N t (1 / 2) with hm2
  set E := (C : ℝ) - 1 with hE
  have hE1 : 1 ≤ E := by linarith
  have e4 : m₁ ≤ 4 * K := by rw [e1]; linarith
  have u : ∀ m, 1 ≤ m → m ≤ 4 * K → 0 < K + E * m ∧ K + E * m ≤ 4 * C * K := by
    intro m h1 h2
    have a := mul_le_mul_of_nonneg_left h2 (by linarith : 0 ≤ E)
    have b := mul_nonneg (by linarith : 0 ≤ E) (by linarith : 0 ≤ m)
    have e : (C : ℝ) = E + 1 := by rw [hE]; ring
    refine ⟨by linarith, ?_⟩
    rw [e]; nlinarith
  obtain ⟨p1, q1⟩ := u m₁ (by linarith) e4
  obtain ⟨p2, q2⟩ := u m₂ e3 (by linarith)
  have gap : m₁ / (K + E * m₁) - m₂ / (K + E * m₂) = K * (m₁ - m₂) / ((K + E * m₁) * (K + E * m₂)) := by
    rw [div_sub_div _ _ p1.ne' p2.ne']
    congr 1
    ring
  have hden : (K + E * m₁) * (K + E * m₂) ≤ (4 * C * K) * (4 * C * K) := mul_le_mul q1 q2 p2.le (by positivity)
  rw [gap, div_le_div_iff₀ (by positivity) (mul_pos p1 p2)]
  calc 3 * δ * ((K + E * m₁) * (K + E * m₂)) ≤ 3 * δ * ((4 * C * K) * (4 * C * K)) :=
        mul_le_mul_of_nonneg_left hden (by positivity)
    _ = K * (3 * δ) * (16 * (C : ℝ) ^ 2 * K) := by ring
    _ ≤ K * (m₁ - m₂) * (16 * (C : ℝ) ^ 2 * K) := by
        refine mul_le_mul_of_nonneg_right ?_ (by positivity)
        exact mul_le_mul_of_nonneg_left (by linarith) (by linarith)

/-- **C88 (refuted for adaptive categorical DMALA).** For every number of sites, every number of values above two,
every requested acceptance rate in `[0, 1)`, every balancing function with `1 / (D C) ≤ exp (h 0) ≤ 1` and every
offset of the acceptance test small against `1 / (C² D)²` there is a smooth model whose target adaptive DMALA loses
within two steps from its initial state. -/
theorem dmalaCategAdaptive_not_kept (hD : 0 < D) (hC : 2 < C) {c : DCfg} (hc : c.adapts)
    (hz : 1 < c.scheduleStep ∨ c.resetZ ≤ 0) (ht0 : 0 ≤ c.target) {tiny : ℝ} (ht : 0 ≤ tiny)
    {h : ℝ → ℝ} (hh1 : h 0 ≤ 0) (hh2 : 1 ≤ (D * C : ℕ) * Real.exp (h 0))
    (hsmall : 1024 * ((C : ℝ) ^ 2 * D) ^ 2 * tiny < 9 * min (1 - c.target) (1 / 2)) (i : Fin D) (k₀ : Fin C) :
    ¬ KeepsTarget (Ω := fun _ : DState => Fin D → Fin C) (validStates C D)
      (fun x => Real.exp (halfModel i k₀ (oneHotRow C x)))
      (fun s x => dmalaCategLaw c h (halfGrad i k₀) s (oneHotRow C x))
      (dmalaCategMove c tiny h (halfModel i k₀) (halfGrad i k₀)) dInit := by
  have hDr : (1 : ℝ) ≤ D := by exact_mod_cast hD
  have hCr : (3 : ℝ) ≤ C := by exact_mod_cast hC
  have hKe : ((D * C : ℕ) : ℝ) = D * C := by push_cast; rfl
  set δ := min (1 - c.target) (1 / 2) with hδ
  have hδ1 : δ ≤ 1 - c.target := min_le_left _ _
  have hδ2 : δ ≤ 1 / 2 := min_le_right _ _
  have hG : (1 : ℝ) ≤ ((C : ℝ) ^ 2 * D) ^ 2 := one_le_pow₀ (by nlinarith)
  have hδ0 : 0 < δ := by nlinarith [mul_nonneg (by positivity : 0 ≤ 1024 * ((C : ℝ) ^ 2 * D) ^ 2) ht]
  have hE : Real.exp (h 0) ≤ 1 := by rw [← Real.exp_zero]; exact Real.exp_le_exp.2 hh1
  have hKC : (C : ℝ) ≤ (D * C : ℕ) := by rw [hKe]; nlinarith
  have hK1 : (1 : ℝ) ≤ (D * C : ℕ) := by linarith
  have hNK : ((D * C : ℕ) : ℝ) * Real.exp (h 0) ≤ (D * C : ℕ) := by nlinarith
  have ht4 : tiny ≤ 1 / 4 := by nlinarith
  refine (dmalaCateg_half hc tiny h hC i k₀).not_kept (Q := fun m => m / ((D * C : ℕ) + (C - 1) * m)) (k := 3)
    (N := (D * C : ℕ) * Real.exp (h 0)) hc hz (by linarith) (by linarith) (by norm_num) (by rw [dmalaLoc0_eq])
    (by rw [dmalaLoc0_eq]) ?_ ?_ (by omega) (fun m hm => dmalaCateg_aim hD (by omega) _ m hm) ht ht4 ?_
  · simp [dmalaLogTau, hc.1, hc.2, dInit]
  · intro s hs; simp [dmalaLogTau, hc.1, hc.2, hs]
  · have hfirst : 3 / (4 * ((D * C : ℕ) : ℝ)) ≤ 3 / ((D * C : ℕ) + (C - 1) * 3) := by
      rw [div_le_div_iff₀ (by positivity) (by nlinarith)]
      linarith
    have hgap := dmalaCateg_gap (C := C) (by omega) hK1 hh2 hNK ht0 (by linarith : c.target < 1)
    rw [← hδ] at hgap
    calc 16 * tiny < 3 / (4 * ((D * C : ℕ) : ℝ)) * (3 * δ / (16 * (C : ℝ) ^ 2 * (D * C : ℕ))) := by
          rw [div_mul_div_comm, lt_div_iff₀ (by positivity), hKe]
          nlinarith
      _ ≤ _ := mul_le_mul hfirst hgap (by positivity) (le_trans (by positivity) hfirst)

/-- With the configured rate and the code's offset, for every shape with `C² D ≤ 10 ^ 10`. -/
theorem dmalaCategAdaptive_not_kept_default (hD : 0 < D) (hC : 2 < C) (hCD : (C : ℝ) ^ 2 * D ≤ 10 ^ 10) {c : DCfg}
    (hc : c.adapts) (hz : 1 < c.scheduleStep) (htgt : c.target = 0.574) {h : ℝ → ℝ} (hh : h 0 = 0) (i : Fin D)
    (k₀ : Fin C) :
    ¬ KeepsTarget (Ω := fun _ : DState => Fin D → Fin C) (validStates C D)
      (fun x => Real.exp (halfModel i k₀ (oneHotRow C x)))
      (fun s x => dmalaCategLaw c h (halfGrad i k₀) s (oneHotRow C x))
      (dmalaCategMove c mhTiny h (halfModel i k₀) (halfGrad i k₀)) dInit := by
  have hK : 1 ≤ D * C := Nat.mul_pos hD (by omega)
  refine dmalaCategAdaptive_not_kept hD hC hc (Or.inl hz) (by rw [htgt]; norm_num) mhTiny_nonneg hh.le
    (by rw [hh, Real.exp_zero, mul_one]; exact_mod_cast hK) ?_ i k₀
  have : ((C : ℝ) ^ 2 * D) ^ 2 ≤ (10 ^ 10) ^ 2 := pow_le_pow_left₀ (by positivity) hCD 2
  unfold mhTiny
  rw [htgt, min_eq_left (by norm_num)]
  norm_num at this ⊢
  linarith

/-! ## DLMC -/

/-- One step of categorical DLMC (`dlmc.py:76-114`), one chain: next sample and next state (for a known solver). -/
noncomputable def dlmcCategMove (c : DCfg) (tiny : ℝ) (h : ℝ → ℝ) (f : (Fin D → Fin C → ℝ) → ℝ)
    (g : (Fin D → Fin C → ℝ) → Fin D → Fin C → ℝ) (s : DState) (x : Fin D → ℤ) (v : Fin D → Fin C) (u : ℝ) :
    (Fin D → ℤ) × DState :=
  match dlmcCategStep c tiny h C f g (fun _ : Fin 1 => x) (fun _ => v) (fun _ => u) s with
  | .ok r => (r.1 0, r.2.1)
  | .error _ => (x, s)

theorem dlmcReset_categ (c : DCfg) (h : ℝ → ℝ) (i : Fin D) (k₀ : Fin C) (w : Fin D → Fin C) :
    (dlmcReset c (I := Fin D × Fin C) fun (_ : Fin 1) a =>
      h (deltaCateg (halfGrad i k₀) (oneHotRow C (categRow w)) a.1 a.2)) = dlmcLoc0 (D * C) c h := by
  simp only [deltaCateg_half, dlmcLoc0_eq]
  simp [dlmcReset, logsumexp]

/-- Logits of DLMC (interpolating solver) when the gradient is zero: another value and the value of the site. -/
noncomputable def dlmcGo (C : ℕ) (h0 t : ℝ) : ℝ :=
  -Real.log C + Real.log (1 - Real.exp (-Real.exp (t + h0 - -Real.log C)))

noncomputable def dlmcStay (C : ℕ) (h0 t : ℝ) : ℝ :=
  clipMin (Real.log (1 + -(clipMax ((C - 1) * Real.exp (dlmcGo C h0 t)) (1 - 1e-12)))) (-Real.log C)

theorem dlmcCategDist_half (t h0 : ℝ) (w : Fin D → Fin C) (j : Fin D) :
    ((dlmcCategDist "interpolate" t (fun _ => h0) (fun _ => 0) (oneHotRow C (categRow w) j)).toOption).getD 0 =
      stayLogits (dlmcStay C h0 t) (dlmcGo C h0 t) w j := by
  have e1 : ∀ k : Fin C, logSoftmax (fun _ : Fin C => (0 : ℝ)) k = -Real.log C := by
    intro k; simp [logSoftmax, logsumexp]
  have e2 : ∀ k : Fin C, Real.exp (dlmcGo C h0 t) * (1 - if k = w j then (1 : ℝ) else 0) =
      if k = w j then 0 else Real.exp (dlmcGo C h0 t) := by intro k; split_ifs <;> ring
  funext k
  unfold dlmcCategDist
  simp only [if_true, Except.toOption, Option.getD_some, e1, dlmcLog1mexp_coe, WithBot.unbotD_coe, oneHot_categRow]
  have e3 : -Real.log C + Real.log (1 - Real.exp (-Real.exp (t + h0 - -Real.log C))) = dlmcGo C h0 t := rfl
  simp only [e3, e2, sum_stay, zero_add]
  unfold stayLogits dlmcStay
  split_ifs <;> ring

theorem dlmcCateg_prob (hC : 0 < C) (hC' : (C : ℝ) ≤ 10 ^ 12) (t h0 : ℝ) :
    moveProb C (dlmcStay C h0 t) (dlmcGo C h0 t) = 1 / C * (1 - Real.exp (-(Real.exp (t + h0) * C))) := by
  have hCr : (1 : ℝ) ≤ C := by exact_mod_cast hC
  have hCp : (0 : ℝ) < C := by linarith
  have ee : Real.exp (t + h0 - -Real.log C) = Real.exp (t + h0) * C := by
    rw [sub_neg_eq_add, Real.exp_add, Real.exp_log hCp]
  set y := Real.exp (-(Real.exp (t + h0) * C)) with hy
  have hy0 : 0 < y := Real.exp_pos _
  have hy1 : y < 1 := by
    rw [hy, Real.exp_lt_one_iff]
    have := mul_pos (Real.exp_pos (t + h0)) hCp
    linarith
  have hgo : Real.exp (dlmcGo C h0 t) = 1 / C * (1 - y) := by
    unfold dlmcGo
    rw [ee, Real.exp_add, Real.exp_neg, Real.exp_log hCp, Real.exp_log (by linarith), one_div]
  have hr : ((C : ℝ) - 1) * (1 / C * (1 - y)) = (1 - 1 / C) * (1 - y) := by field_simp
  have hC1 : (1e-12 : ℝ) ≤ 1 / C := by
    rw [le_div_iff₀ hCp]; nlinarith
  have hC2 : 1 / (C : ℝ) ≤ 1 := by rw [div_le_one hCp]; exact hCr
  have hle : (1 - 1 / (C : ℝ)) * (1 - y) ≤ 1 - 1 / C := by nlinarith
  have hstay : Real.exp (dlmcStay C h0 t) = 1 - (1 - 1 / C) * (1 - y) := by
    unfold dlmcStay
    rw [hgo, hr]
    have h1 : clipMax ((1 - 1 / (C : ℝ)) * (1 - y)) (1 - 1e-12) = (1 - 1 / C) * (1 - y) :=
      min_eq_left (by linarith)
    have hpos : 0 < 1 / (C : ℝ) := by positivity
    rw [h1]
    have h2 : clipMin (Real.log (1 + -((1 - 1 / (C : ℝ)) * (1 - y)))) (-Real.log C) =
        Real.log (1 + -((1 - 1 / (C : ℝ)) * (1 - y))) := by
      refine max_eq_left ?_
      rw [← Real.log_inv, ← one_div]
      exact Real.log_le_log hpos (by linarith)
    rw [h2, Real.exp_log (by linarith)]
    ring
  unfold moveProb
  rw [hstay, hgo, hr]
  have : 1 - (1 - 1 / (C : ℝ)) * (1 - y) + (1 - 1 / C) * (1 - y) = 1 := by ring
  rw [this, div_one]

/-- What a step of adaptive DLMC does, for either solver. -/
theorem dlmcCateg_half {c : DCfg} (hc : c.adapts) (hsol' : c.solver ∈ knownSolvers) (tiny : ℝ) (h : ℝ → ℝ)
    (hC : 2 < C) (i : Fin D) (k₀ : Fin C) {A B : ℝ → ℝ} (hdist : ∀ (w : Fin D → Fin C) t j,
      ((dlmcCategDist c.solver t (fun _ => h 0) (fun _ => 0) (oneHotRow C (categRow w) j)).toOption).getD 0 =
        stayLogits (A t) (B t) w j) :
    HalfSampler c tiny i k₀ (fun s => dlmcLogTau c s (dlmcLoc0 (D * C) c h)) A B (dlmcLoc0 (D * C) c h)
      (fun s x => dlmcCategLaw c h (halfGrad i k₀) s (oneHotRow C x))
      (dlmcCategMove c tiny h (halfModel i k₀) (halfGrad i k₀)) := by
  have : Nonempty (Fin C) := ⟨k₀⟩
  have hd : ∀ (w : Fin D → Fin C), (deltaCateg (halfGrad i k₀) (oneHotRow C (categRow w))) = fun _ _ => 0 :=
    fun w => funext fun j => funext fun k => deltaCateg_half i k₀ w j k
  have hacc : ∀ (w v : Fin D → Fin C) t, halfModel i k₀ (oneHotRow C (categRow v)) +
      categLl (stayLogits (A t) (B t) v) (oneHotRow C (categRow w)) -
      halfModel i k₀ (oneHotRow C (categRow w)) -
      categLl (stayLogits (A t) (B t) w) (oneHotRow C (categRow v)) =
      halfModel i k₀ (oneHotRow C (categRow v)) - halfModel i k₀ (oneHotRow C (categRow w)) := by
    intro w v t; rw [categLl_stay]; ring
  have e : ∀ (w : Fin D → Fin C) t, (fun j => ((dlmcCategDist c.solver t (fun _ => h 0) (fun _ => 0)
      (oneHotRow C (categRow w) j)).toOption).getD 0) =
      stayLogits (A t) (B t) w := fun w t => funext fun j => hdist w t j
  have hstep : ∀ s (w v : Fin D → Fin C) u t, dlmcLogTau c s (dlmcLoc0 (D * C) c h) = some t →
      dlmcCategMove c tiny h (halfModel i k₀) (halfGrad i k₀) s (categRow w) v u =
      (argmaxRow ((mhStep tiny (fun _ : Fin 1 => u)
        (fun _ => halfModel i k₀ (oneHotRow C (categRow v)) - halfModel i k₀ (oneHotRow C (categRow w)))
        (fun _ => oneHotRow C (categRow w)) (fun _ => oneHotRow C (categRow v))).1 0),
        dSelectState c s (some (Real.exp (clipMax
          (halfModel i k₀ (oneHotRow C (categRow v)) - halfModel i k₀ (oneHotRow C (categRow w))) 0)))
          (dlmcLoc0 (D * C) c h)) := by
    intro s w v u t hs
    unfold dlmcCategMove dlmcCategStep
    simp only [dlmcReset_categ, hs]
    simp only [not_unknown c hsol', dlmcPreState, hc.1, if_true, dmalaLogTauRev,
      hc.2, Bool.and_false, Bool.false_eq_true, if_false, hd, gt_iff_lt, hC]
    simp only [e, hacc, dAcc_one]
  constructor
  · intro s w hs
    simp only [dlmcCategLaw, dlmcCategTau1, dlmcReset_categ, hs]
    exact (isProb_categLaw (by omega) _).2
  · intro s w t hs
    simp only [dlmcCategLaw, dlmcCategTau1, dlmcReset_categ, hs]
    simp only [hd]
    rw [e]
  · intro s w v u hs
    unfold dlmcCategMove dlmcCategStep
    simp only [dlmcReset_categ, hs, not_unknown c hsol', if_false, dlmcPreState, hc.1, if_true,
      argmaxRow_oneHotRow (categRow_valid w)]
  · intro s w v u t hs hb
    rw [hstep s w v u t hs, mhStep_one, if_pos hb, argmaxRow_oneHotRow (categRow_valid v)]
  · intro s w v u t hs hb
    rw [hstep s w v u t hs, mhStep_one, if_neg hb, argmaxRow_oneHotRow (categRow_valid w)]
  · intro s w v u t hs
    rw [hstep s w v u t hs]

/-- Probability of a move of DLMC when `m` flips are requested. -/
theorem dlmcCateg_aim (hD : 0 < D) (hC : 0 < C) (hC' : (C : ℝ) ≤ 10 ^ 12) (h0 m : ℝ) (hm : 0 < m) :
    moveProb C (dlmcStay C h0 (Real.log m - Real.log ((D * C : ℕ) * Real.exp h0)))
      (dlmcGo C h0 (Real.log m - Real.log ((D * C : ℕ) * Real.exp h0))) = 1 / C * (1 - Real.exp (-(m / D))) := by
  have hCp : (0 : ℝ) < C := by exact_mod_cast hC
  have hDp : (0 : ℝ) < D := by exact_mod_cast hD
  rw [dlmcCateg_prob hC hC', exp_neg_exp_zero (Nat.mul_pos hD hC) _ _ hm]
  congr 4
  push_cast
  field_simp

/-- Probabilities of a move of DLMC after acceptance ratios 1 and 1/2. -/
theorem dlmcCateg_gap (hD : 0 < D) (hC : 0 < C) {N t : ℝ} (hN : 1 ≤ N) (hNK : N ≤ D * C) (ht0 : 0 ≤ t)
    (ht1 : t < 1) :
    3 * min (1 - t) (1 / 2) * Real.exp (-(C + 3)) / (C * D) ≤ 1 / C * (1 - Real.exp (-(dAim N t 1 / D))) -
      1 / C * (1 - Real.exp (-(dAim N t (1 / 2) / D))) := by
  have hCp : (0 : ℝ) < C := by exact_mod_cast hC
  have hDr : (1 : ℝ) ≤ D := by exact_mod_cast hD
  have hDp : (0 : ℝ) < D := by linarith
  set δ := min (1 - t) (1 / 2) with hδ
  have hδ1 : δ ≤ 1 - t := min_le_left _ _
  have hδ2 : δ ≤ 1 / 2 := min_le_right _ _
  have hδ0 : 0 < δ := lt_min (by linarith) (by norm_num)
  have e1 : dAim N t 1 = N + 3 * (1 - t) := max_eq_right (by linarith)
  have e2 : dAim N t (1 / 2) ≤ dAim N t 1 - 3 * δ := by
    rw [e1]
    exact max_le (by linarith) (by linarith)
  set m₁ := dAim N t 1 with hm1
  set m₂ := dAim N t (1 / 2) with hm2
  have b0 : Real.exp (-(C + 3)) ≤ Real.exp (-(m₁ / D)) := by
    refine Real.exp_le_exp.2 (neg_le_neg ?_)
    rw [div_le_iff₀ hDp, e1]
    nlinarith
  have b1 : Real.exp (-(m₂ / D)) = Real.exp (-(m₁ / D)) * Real.exp ((m₁ - m₂) / D) := by
    rw [← Real.exp_add]; congr 1; field_simp; ring
  have b2 := Real.add_one_le_exp ((m₁ - m₂) / D)
  have b3 : 3 * δ / D ≤ (m₁ - m₂) / D := div_le_div_of_nonneg_right (by linarith) hDp.le
  have b4 : Real.exp (-(C + 3)) * (3 * δ / D) ≤ Real.exp (-(m₁ / D)) * (Real.exp ((m₁ - m₂) / D) - 1) :=
    mul_le_mul b0 (by linarith) (by positivity) (Real.exp_pos _).le
  have b6 : 3 * δ * Real.exp (-(C + 3)) / (C * D) = 1 / C * (Real.exp (-(C + 3)) * (3 * δ / D)) := by
    field_simp
  rw [b6, ← mul_sub, b1]
  refine mul_le_mul_of_nonneg_left ?_ (by positivity)
  linarith

theorem dlmcCateg_first (hD : 0 < D) (hC : 0 < C) {k : ℝ} (hk : 1 ≤ k) :
    1 / (C * (D + 1) : ℝ) ≤ 1 / C * (1 - Real.exp (-(k / D))) := by
  have hCp : (0 : ℝ) < C := by exact_mod_cast hC
  have hDp : (0 : ℝ) < D := by exact_mod_cast hD
  have a1 : 1 / (D : ℝ) ≤ k / D := div_le_div_of_nonneg_right hk hDp.le
  have a2 : Real.exp (-(k / D)) ≤ 1 / (1 + 1 / D) := by
    rw [Real.exp_neg, ← one_div]
    refine one_div_le_one_div_of_le (by positivity) ?_
    have := Real.add_one_le_exp (k / D)
    linarith
  have a3 : 1 - 1 / (1 + 1 / (D : ℝ)) = 1 / (D + 1) := by
    field_simp; ring
  rw [show 1 / ((C : ℝ) * (D + 1)) = 1 / C * (1 / (D + 1)) by rw [one_div_mul_one_div], ← a3]
  exact mul_le_mul_of_nonneg_left (by linarith) (by positivity)

/-- **C88 (refuted for adaptive categorical DLMC, interpolating solver).** -/
theorem dlmcCategAdaptive_not_kept (hD : 0 < D) (hC : 2 < C) (hC' : (C : ℝ) ≤ 10 ^ 12) {c : DCfg} (hc : c.adapts)
    (hsol : c.solver = "interpolate") (hz : 1 < c.scheduleStep ∨ c.resetZ ≤ 0) (ht0 : 0 ≤ c.target) (hn : 1 ≤ c.n)
    {tiny : ℝ} (ht : 0 ≤ tiny) {h : ℝ → ℝ} (hh1 : h 0 ≤ 0) (hh2 : 1 ≤ (D * C : ℕ) * Real.exp (h 0))
    (hsmall : 16 * ((C : ℝ) ^ 2 * D * (D + 1)) * tiny <
      3 * min (1 - c.target) (1 / 2) * Real.exp (-(C + 3))) (i : Fin D) (k₀ : Fin C) :
    ¬ KeepsTarget (Ω := fun _ : DState => Fin D → Fin C) (validStates C D)
      (fun x => Real.exp (halfModel i k₀ (oneHotRow C x)))
      (fun s x => dlmcCategLaw c h (halfGrad i k₀) s (oneHotRow C x))
      (dlmcCategMove c tiny h (halfModel i k₀) (halfGrad i k₀)) dInit := by
  have hDr : (1 : ℝ) ≤ D := by exact_mod_cast hD
  have hCr : (3 : ℝ) ≤ C := by exact_mod_cast hC
  have hKe : ((D * C : ℕ) : ℝ) = D * C := by push_cast; rfl
  set δ := min (1 - c.target) (1 / 2) with hδ
  have hδ1 : δ ≤ 1 - c.target := min_le_left _ _
  have hδ2 : δ ≤ 1 / 2 := min_le_right _ _
  set X := Real.exp (-((C : ℝ) + 3)) with hX
  have hX0 : 0 < X := Real.exp_pos _
  have hX1 : X ≤ 1 := by rw [hX, ← Real.exp_zero]; exact Real.exp_le_exp.2 (by linarith)
  have hG : (9 : ℝ) ≤ (C : ℝ) ^ 2 * D * (D + 1) := by
    have h1 : (9 : ℝ) ≤ (C : ℝ) ^ 2 := by nlinarith
    have h2 : (9 : ℝ) ≤ (C : ℝ) ^ 2 * D := by nlinarith
    nlinarith
  have hδ0 : 0 < δ := by
    have h1 : 0 ≤ 16 * ((C : ℝ) ^ 2 * D * (D + 1)) * tiny := by positivity
    have h2 : 0 < δ * X := by nlinarith
    exact pos_of_mul_pos_left h2 hX0.le
  have hE : Real.exp (h 0) ≤ 1 := by rw [← Real.exp_zero]; exact Real.exp_le_exp.2 hh1
  have hNK : ((D * C : ℕ) : ℝ) * Real.exp (h 0) ≤ D * C := by
    rw [hKe]
    exact mul_le_of_le_one_right (by positivity) hE
  have hδX : δ * X ≤ 1 / 2 := by nlinarith
  have ht4 : tiny ≤ 1 / 4 := by nlinarith
  have hsol' : c.solver ∈ knownSolvers := by rw [hsol]; unfold knownSolvers; simp
  refine (dlmcCateg_half hc hsol' tiny h hC i k₀ (A := dlmcStay C (h 0)) (B := dlmcGo C (h 0)) fun w t j => by
    rw [hsol]; exact dlmcCategDist_half t _ w j).not_kept (Q := fun m => 1 / C * (1 - Real.exp (-(m / D))))
    (k := c.n) (N := (D * C : ℕ) * Real.exp (h 0)) hc hz (by linarith) (by linarith) (by linarith)
    (by rw [dlmcLoc0_eq]) (by rw [dlmcLoc0_eq]) ?_ ?_ (by omega)
    (fun m hm => dlmcCateg_aim hD (by omega) hC' _ m hm) ht ht4 ?_
  · simp [dlmcLogTau, hc.1, hc.2, dInit]
  · intro s hs; simp [dlmcLogTau, hc.1, hc.2, hs]
  · have hfirst := dlmcCateg_first (C := C) hD (by omega) hn
    have hgap := dlmcCateg_gap (C := C) hD (by omega) hh2 hNK ht0 (by linarith : c.target < 1)
    rw [← hδ, ← hX] at hgap
    calc 16 * tiny < 1 / (C * (D + 1) : ℝ) * (3 * δ * X / (C * D)) := by
          rw [div_mul_div_comm, lt_div_iff₀ (by positivity)]
          linarith
      _ ≤ _ := mul_le_mul hfirst hgap (by positivity) (le_trans (by positivity) hfirst)

/-- With the configured rate and number of flips and the code's offset, for samples of up to a million sites with
up to ten values. -/
theorem dlmcCategAdaptive_not_kept_default (hD : 0 < D) (hD' : D ≤ 10 ^ 6) (hC : 2 < C) (hC' : C ≤ 10) {c : DCfg}
    (hc : c.adapts) (hsol : c.solver = "interpolate") (hz : 1 < c.scheduleStep) (htgt : c.target = 0.574)
    (hn : c.n = 3) {h : ℝ → ℝ} (hh : h 0 = 0) (i : Fin D) (k₀ : Fin C) :
    ¬ KeepsTarget (Ω := fun _ : DState => Fin D → Fin C) (validStates C D)
      (fun x => Real.exp (halfModel i k₀ (oneHotRow C x)))
      (fun s x => dlmcCategLaw c h (halfGrad i k₀) s (oneHotRow C x))
      (dlmcCategMove c mhTiny h (halfModel i k₀) (halfGrad i k₀)) dInit := by
  have hK : 1 ≤ D * C := Nat.mul_pos hD (by omega)
  have hDr : (D : ℝ) ≤ 10 ^ 6 := by exact_mod_cast hD'
  have hCr : (C : ℝ) ≤ 10 := by exact_mod_cast hC'
  refine dlmcCategAdaptive_not_kept hD hC (by linarith) hc hsol (Or.inl hz) (by rw [htgt]; norm_num)
    (by rw [hn]; norm_num) mhTiny_nonneg hh.le (by rw [hh, Real.exp_zero, mul_one]; exact_mod_cast hK) ?_ i k₀
  have h1 : (C : ℝ) ^ 2 * D * (D + 1) ≤ 10 ^ 2 * 10 ^ 6 * (10 ^ 6 + 1) := by gcongr
  have h2 : Real.exp (-13) ≤ Real.exp (-((C : ℝ) + 3)) := Real.exp_le_exp.2 (by linarith)
  have h3 : Real.exp 13 ≤ 1000000 := by
    have := Real.exp_one_lt_d9
    have b : Real.exp 13 = Real.exp 1 ^ 13 := by rw [← Real.exp_nat_mul]; norm_num
    rw [b]
    calc Real.exp 1 ^ 13 ≤ 2.7182818286 ^ 13 := pow_le_pow_left₀ (Real.exp_pos _).le this.le 13
      _ ≤ 1000000 := by norm_num
  have h4 : (1 / 1000000 : ℝ) ≤ Real.exp (-13) := by
    rw [Real.exp_neg, ← one_div]
    exact one_div_le_one_div_of_le (Real.exp_pos _) h3
  unfold mhTiny
  rw [htgt, min_eq_left (by norm_num)]
  generalize Real.exp (-((C : ℝ) + 3)) = X at h2 ⊢
  norm_num at h1 ⊢
  linarith

/-! ## DLMC, Euler solver -/

/-- Logit of the value of the site for the Euler solver when the gradient is zero. -/
noncomputable def eulerStay (C : ℕ) (h0 t : ℝ) : ℝ :=
  clipMin (Real.log (1 + -(clipMax ((C - 1) * Real.exp (t + h0)) (1 - 1e-12)))) (-Real.log C)

theorem eulerDist_half (t h0 : ℝ) (w : Fin D → Fin C) (j : Fin D) :
    ((dlmcCategDist "euler_forward" t (fun _ => h0) (fun _ => 0) (oneHotRow C (categRow w) j)).toOption).getD 0 =
      stayLogits (eulerStay C h0 t) (t + h0) w j := by
  have e1 : ∀ k : Fin C, logSoftmax (fun _ : Fin C => (0 : ℝ)) k = -Real.log C := by
    intro k; simp [logSoftmax, logsumexp]
  have e2 : ∀ k : Fin C, Real.exp (t + h0) * (1 - if k = w j then (1 : ℝ) else 0) =
      if k = w j then 0 else Real.exp (t + h0) := by intro k; split_ifs <;> ring
  have hne : ¬ ("euler_forward" = "interpolate") := by decide
  funext k
  unfold dlmcCategDist
  simp only [hne, if_false, if_true, Except.toOption, Option.getD_some, e1, oneHot_categRow, e2, sum_stay, zero_add]
  unfold stayLogits eulerStay
  split_ifs <;> ring

/-- The Euler solver keeps at least the uniform probability of staying. -/
theorem euler_prob (hC : 0 < C) (hC' : (C : ℝ) ≤ 10 ^ 12) (t h0 : ℝ) :
    moveProb C (eulerStay C h0 t) (t + h0) = Real.exp (t + h0) /
      (max (1 - (C - 1) * Real.exp (t + h0)) (1 / C) + (C - 1) * Real.exp (t + h0)) := by
  have hCr : (1 : ℝ) ≤ C := by exact_mod_cast hC
  have hCp : (0 : ℝ) < C := by linarith
  have hC1 : (1e-12 : ℝ) ≤ 1 / C := by rw [le_div_iff₀ hCp]; nlinarith
  unfold moveProb
  congr 2
  set r := ((C : ℝ) - 1) * Real.exp (t + h0)
  have hpos : 0 < 1 / (C : ℝ) := by positivity
  have hl : -Real.log (C : ℝ) = Real.log (1 / C) := by rw [one_div, Real.log_inv]
  unfold eulerStay clipMin clipMax
  rw [hl]
  rcases le_total r (1 - 1 / C) with h | h
  · rw [min_eq_left (by linarith), max_eq_left (Real.log_le_log hpos (by linarith)), Real.exp_log (by linarith),
      max_eq_left (by linarith)]
    ring
  · rw [max_eq_right (Real.log_le_log ?_ ?_), Real.exp_log hpos, max_eq_right (by linarith)]
    · have := min_le_right r (1 - 1e-12); norm_num at this ⊢
    · have := le_min h (by linarith : 1 - 1 / (C : ℝ) ≤ 1 - 1e-12); linarith

/-- Probability of a move of the Euler solver when `m` flips are requested. -/
noncomputable def eulerQ (D C : ℕ) (m : ℝ) : ℝ :=
  m / (D * C : ℕ) / (max (1 - (C - 1) * (m / (D * C : ℕ))) (1 / C) + (C - 1) * (m / (D * C : ℕ)))

theorem eulerQ_large (hD : 0 < D) (hC : 2 ≤ C) {m : ℝ} (hm : D ≤ m) : eulerQ D C m = m / (D + (C - 1) * m) := by
  have hCr : (2 : ℝ) ≤ C := by exact_mod_cast hC
  have hDp : (0 : ℝ) < D := by exact_mod_cast hD
  have hp : 0 < (D : ℝ) + (C - 1) * m := by nlinarith
  unfold eulerQ
  push_cast
  have h1 : max (1 - ((C : ℝ) - 1) * (m / (D * C))) (1 / C) = 1 / C := by
    refine max_eq_right ?_
    rw [div_eq_mul_inv 1, sub_le_iff_le_add]
    have : (1 : ℝ) / C ≤ m / (D * C) := by
      rw [div_le_div_iff₀ (by positivity) (by positivity)]; nlinarith
    have h2 : 1 = 1 * (C : ℝ)⁻¹ + (C - 1) * (1 / C) := by field_simp; ring
    nlinarith
  rw [h1, div_div, show (1 / (C : ℝ) + (C - 1) * (m / (D * C))) = (D + (C - 1) * m) / (D * C) by field_simp,
    mul_div_cancel₀ _ (by positivity)]

theorem eulerQ_first (hD : 0 < D) (hC : 2 ≤ C) {k : ℝ} (hk : 1 ≤ k) : 1 / (D * C : ℝ) ≤ eulerQ D C k := by
  have hCr : (2 : ℝ) ≤ C := by exact_mod_cast hC
  have hDr : (1 : ℝ) ≤ D := by exact_mod_cast hD
  have hDp : (0 : ℝ) < D := by linarith
  rcases le_total (D : ℝ) k with h | h
  · rw [eulerQ_large hD hC h, div_le_div_iff₀ (by positivity) (by nlinarith)]
    nlinarith [mul_nonneg (by linarith : (0 : ℝ) ≤ D - 1) (by nlinarith : (0 : ℝ) ≤ k * C)]
  · unfold eulerQ
    push_cast
    have hr : ((C : ℝ) - 1) * (k / (D * C)) ≤ 1 - 1 / C := by
      have : k / (D * C) ≤ 1 / C := by rw [div_le_div_iff₀ (by positivity) (by positivity)]; nlinarith
      have h2 : 1 - 1 / (C : ℝ) = (C - 1) * (1 / C) := by field_simp
      rw [h2]
      exact mul_le_mul_of_nonneg_left this (by linarith)
    rw [max_eq_left (by linarith), sub_add_cancel, div_one]
    exact div_le_div_of_nonneg_right hk (by positivity)

/-- **C88 (refuted for adaptive categorical DLMC, Euler solver).** The balancing function only has to ask for more
moves than there are sites: `exp (h 0) = 1` always does, `exp (h 0) = 1 / 2` from three sites on. -/
theorem dlmcCategEuler_not_kept (hD : 0 < D) (hC : 2 < C) (hC' : (C : ℝ) ≤ 10 ^ 12) {c : DCfg} (hc : c.adapts)
    (hsol : c.solver = "euler_forward") (hz : 1 < c.scheduleStep ∨ c.resetZ ≤ 0) (ht0 : 0 ≤ c.target) (hn : 1 ≤ c.n)
    {tiny : ℝ} (ht : 0 ≤ tiny) {h : ℝ → ℝ} (hh1 : h 0 ≤ 0)
    (hh2 : D + 3 * max 0 (c.target - 1 / 2) ≤ (D * C : ℕ) * Real.exp (h 0))
    (hsmall : 256 * ((C : ℝ) ^ 5 * (D : ℝ) ^ 2) * tiny < 3 * min (1 - c.target) (1 / 2)) (i : Fin D) (k₀ : Fin C) :
    ¬ KeepsTarget (Ω := fun _ : DState => Fin D → Fin C) (validStates C D)
      (fun x => Real.exp (halfModel i k₀ (oneHotRow C x)))
      (fun s x => dlmcCategLaw c h (halfGrad i k₀) s (oneHotRow C x))
      (dlmcCategMove c tiny h (halfModel i k₀) (halfGrad i k₀)) dInit := by
  have hDr : (1 : ℝ) ≤ D := by exact_mod_cast hD
  have hCr : (3 : ℝ) ≤ C := by exact_mod_cast hC
  have hDp : (0 : ℝ) < D := by linarith
  have hKe : ((D * C : ℕ) : ℝ) = D * C := by push_cast; rfl
  have hsol' : c.solver ∈ knownSolvers := by rw [hsol]; unfold knownSolvers; simp
  set δ := min (1 - c.target) (1 / 2) with hδ
  have hδ1 : δ ≤ 1 - c.target := min_le_left _ _
  have hδ2 : δ ≤ 1 / 2 := min_le_right _ _
  have hG : (1 : ℝ) ≤ (C : ℝ) ^ 5 * (D : ℝ) ^ 2 :=
    one_le_mul_of_one_le_of_one_le (one_le_pow₀ (by linarith)) (one_le_pow₀ hDr)
  have hδ0 : 0 < δ := by nlinarith [mul_nonneg (by positivity : 0 ≤ 256 * ((C : ℝ) ^ 5 * (D : ℝ) ^ 2)) ht]
  have hE : Real.exp (h 0) ≤ 1 := by rw [← Real.exp_zero]; exact Real.exp_le_exp.2 hh1
  set N := ((D * C : ℕ) : ℝ) * Real.exp (h 0) with hN
  have hNK : N ≤ D * C := by rw [hN, hKe]; exact mul_le_of_le_one_right (by positivity) hE
  have hm0 := le_max_left 0 (c.target - 1 / 2)
  have hm1 := le_max_right 0 (c.target - 1 / 2)
  have hND : (D : ℝ) ≤ N := by linarith
  have ht4 : tiny ≤ 1 / 4 := by nlinarith
  refine (dlmcCateg_half hc hsol' tiny h hC i k₀ (A := eulerStay C (h 0)) (B := fun t => t + h 0) fun w t j => by
    rw [hsol]; exact eulerDist_half t _ w j).not_kept (Q := eulerQ D C)
    (k := c.n) (N := N) hc hz (by linarith) (by linarith) (by linarith)
    (by rw [dlmcLoc0_eq]) (by rw [dlmcLoc0_eq]) ?_ ?_ (by omega) ?_ ht ht4 ?_
  · simp [dlmcLogTau, hc.1, hc.2, dInit]
  · intro s hs; simp [dlmcLogTau, hc.1, hc.2, hs]
  · intro m hm
    rw [euler_prob (by omega) hC', exp_neg_exp_zero (Nat.mul_pos hD (by omega)) _ _ hm]
    rfl
  · have e1 : dAim N c.target 1 = N + 3 * (1 - c.target) := max_eq_right (by linarith)
    have e2 : dAim N c.target (1 / 2) = N + 3 * (1 / 2 - c.target) := max_eq_right (by linarith)
    have f1 : (D : ℝ) ≤ dAim N c.target 1 := by rw [e1]; linarith
    have f2 : (D : ℝ) ≤ dAim N c.target (1 / 2) := by rw [e2]; linarith
    have hm12 : 3 * δ ≤ dAim N c.target 1 - dAim N c.target (1 / 2) := by rw [e1, e2]; linarith
    have f3 : dAim N c.target 1 ≤ 4 * (D * C) := by rw [e1]; nlinarith
    rw [eulerQ_large hD (by omega) f1, eulerQ_large hD (by omega) f2]
    set m₁ := dAim N c.target 1
    set m₂ := dAim N c.target (1 / 2)
    have u : ∀ m, (D : ℝ) ≤ m → m ≤ 4 * (D * C) → 0 < D + ((C : ℝ) - 1) * m ∧
        D + ((C : ℝ) - 1) * m ≤ 4 * (C : ℝ) ^ 2 * D := by
      intro m h1 h2
      have a := mul_le_mul_of_nonneg_left h2 (by linarith : 0 ≤ (C : ℝ) - 1)
      have b := mul_nonneg (by linarith : 0 ≤ (C : ℝ) - 1) (by linarith : 0 ≤ m)
      refine ⟨by linarith, ?_⟩
      nlinarith
    obtain ⟨p1, q1⟩ := u m₁ f1 f3
    obtain ⟨p2, q2⟩ := u m₂ f2 (by linarith)
    have hden : (D + ((C : ℝ) - 1) * m₁) * (D + ((C : ℝ) - 1) * m₂) ≤
        (4 * (C : ℝ) ^ 2 * D) * (4 * (C : ℝ) ^ 2 * D) := mul_le_mul q1 q2 p2.le (by positivity)
    have hgap : 3 * δ / (16 * (C : ℝ) ^ 4 * D) ≤
        m₁ / (D + ((C : ℝ) - 1) * m₁) - m₂ / (D + ((C : ℝ) - 1) * m₂) := by
      rw [div_sub_div _ _ p1.ne' p2.ne', div_le_div_iff₀ (by positivity) (mul_pos p1 p2)]
      calc 3 * δ * ((D + ((C : ℝ) - 1) * m₁) * (D + ((C : ℝ) - 1) * m₂)) ≤
            3 * δ * ((4 * (C : ℝ) ^ 2 * D) * (4 * (C : ℝ) ^ 2 * D)) :=
            mul_le_mul_of_nonneg_left hden (by positivity)
        _ = D * (3 * δ) * (16 * (C : ℝ) ^ 4 * D) := by ring
        _ ≤ D * (m₁ - m₂) * (16 * (C : ℝ) ^ 4 * D) := by
            refine mul_le_mul_of_nonneg_right ?_ (by positivity)
            exact mul_le_mul_of_nonneg_left hm12 hDp.le
        _ = _ := by ring
    have hfirst := eulerQ_first (C := C) hD (by omega) hn
    calc 16 * tiny < 1 / (D * C : ℝ) * (3 * δ / (16 * (C : ℝ) ^ 4 * D)) := by
          rw [div_mul_div_comm, lt_div_iff₀ (by positivity)]
          nlinarith
      _ ≤ _ := mul_le_mul hfirst hgap (by positivity) (le_trans (by positivity) hfirst)

/-! ## Examples -/

/-- A Potts-like sample: sixteen sites with four values, square-root weights, the settings of the configuration
file. -/
example : ¬ KeepsTarget (Ω := fun _ : DState => Fin 16 → Fin 4) (validStates 4 16)
    (fun x => Real.exp (halfModel 0 0 (oneHotRow 4 x)))
    (fun s x => dmalaCategLaw ⟨true, false, 1, 0.574, 100, 20, 3, "interpolate"⟩ (fun r => r / 2) (halfGrad 0 0) s
      (oneHotRow 4 x))
    (dmalaCategMove ⟨true, false, 1, 0.574, 100, 20, 3, "interpolate"⟩ mhTiny (fun r => r / 2) (halfModel 0 0)
      (halfGrad 0 0)) dInit :=
  dmalaCategAdaptive_not_kept_default (by norm_num) (by norm_num) (by norm_num) ⟨rfl, rfl⟩ (by norm_num) rfl
    (by norm_num) 0 0

example : ¬ KeepsTarget (Ω := fun _ : DState => Fin 16 → Fin 4) (validStates 4 16)
    (fun x => Real.exp (halfModel 0 0 (oneHotRow 4 x)))
    (fun s x => dlmcCategLaw ⟨true, false, 1, 0.574, 100, 20, 3, "interpolate"⟩ (fun r => r / 2) (halfGrad 0 0) s
      (oneHotRow 4 x))
    (dlmcCategMove ⟨true, false, 1, 0.574, 100, 20, 3, "interpolate"⟩ mhTiny (fun r => r / 2) (halfModel 0 0)
      (halfGrad 0 0)) dInit :=
  dlmcCategAdaptive_not_kept_default (by norm_num) (by norm_num) (by norm_num) (by norm_num) ⟨rfl, rfl⟩ rfl
    (by norm_num) rfl rfl (by norm_num) 0 0

example : ¬ KeepsTarget (Ω := fun _ : DState => Fin 16 → Fin 4) (validStates 4 16)
    (fun x => Real.exp (halfModel 0 0 (oneHotRow 4 x)))
    (fun s x => dlmcCategLaw ⟨true, false, 1, 0.574, 100, 20, 3, "euler_forward"⟩ (fun r => r / 2) (halfGrad 0 0) s
      (oneHotRow 4 x))
    (dlmcCategMove ⟨true, false, 1, 0.574, 100, 20, 3, "euler_forward"⟩ mhTiny (fun r => r / 2) (halfModel 0 0)
      (halfGrad 0 0)) dInit := by
  refine dlmcCategEuler_not_kept (by norm_num) (by norm_num) (by norm_num) ⟨rfl, rfl⟩ rfl (Or.inl (by norm_num))
    (by norm_num) (by norm_num) mhTiny_nonneg (by norm_num) ?_ ?_ 0 0
  · rw [max_eq_right (by norm_num)]; norm_num
  · rw [min_eq_left (by norm_num)]; unfold mhTiny; norm_num

end Discs
