import Verif.Props.Float32Flip
import Verif.Props.GWG

/-!
# Property C108: GWG and categorical DMALA and DLMC in single precision
-/

namespace Discs

open Finset Spec

variable {D : ℕ}

/-- Independent draws from nearly the same laws. -/
theorem prodLaw_close {I : Type*} [Fintype I] : ∀ {n : ℕ} {p p' : Fin n → I → ℝ}, (∀ i, IsProb (p i)) → (∀ i, IsProb (p' i)) →
    ∑ v : Fin n → I, |∏ i, p i (v i) - ∏ i, p' i (v i)| ≤ ∑ i, ∑ c, |p i c - p' i c|
  | 0, p, p', _, _ => by simp
  | n + 1, p, p', h, h' => by
    have ih := prodLaw_close (fun i => h i.succ) (fun i => h' i.succ)
    have hB : ∑ v : Fin n → I, ∏ i, p i.succ (v i) = 1 := by
      rw [← Fintype.prod_sum (f := fun i : Fin n => p i.succ)]
      exact Finset.prod_eq_one fun i _ => (h i.succ).2
    have hB0 : ∀ v : Fin n → I, 0 ≤ ∏ i, p i.succ (v i) := fun v => Finset.prod_nonneg fun i _ => (h i.succ).1 _
    rw [← (Fin.consEquiv fun _ => I).sum_comp, Fintype.sum_prod_type, Fin.sum_univ_succ]
    have e : ∀ (p : Fin (n + 1) → I → ℝ) (c : I) (v : Fin n → I),
        ∏ i, p i (Fin.consEquiv (fun _ => I) (c, v) i) = p 0 c * ∏ i : Fin n, p i.succ (v i) := by
      intro p c v
      rw [Fin.prod_univ_succ]
      rfl
    simp only [e]
    calc ∑ c, ∑ v : Fin n → I, |p 0 c * ∏ i : Fin n, p i.succ (v i) - p' 0 c * ∏ i : Fin n, p' i.succ (v i)|
        ≤ ∑ c, ∑ v : Fin n → I, (|p 0 c - p' 0 c| * ∏ i : Fin n, p i.succ (v i) +
            p' 0 c * |∏ i : Fin n, p i.succ (v i) - ∏ i : Fin n, p' i.succ (v i)|) := by
          refine Finset.sum_le_sum fun c _ => Finset.sum_le_sum fun v _ => ?_
          rw [show p 0 c * ∏ i : Fin n, p i.succ (v i) - p' 0 c * ∏ i : Fin n, p' i.succ (v i) =
            (p 0 c - p' 0 c) * ∏ i : Fin n, p i.succ (v i) +
              p' 0 c * (∏ i : Fin n, p i.succ (v i) - ∏ i : Fin n, p' i.succ (v i)) by ring]
          refine (abs_add_le _ _).trans (le_of_eq ?_)
          rw [abs_mul, abs_mul, abs_of_nonneg (hB0 v), abs_of_nonneg ((h' 0).1 c)]
      _ = ∑ c, |p 0 c - p' 0 c| + ∑ v : Fin n → I, |∏ i : Fin n, p i.succ (v i) - ∏ i : Fin n, p' i.succ (v i)| := by
          simp only [Finset.sum_add_distrib, ← Finset.mul_sum, hB, mul_one, ← Finset.sum_mul]
          rw [(h' 0).2, one_mul]
      _ ≤ _ := add_le_add le_rfl ih

/-! ## Binary GWG -/

/-- Error of a sum of `k` gathered log-probabilities of size at most `B` and normalised up to `δ`. -/
noncomputable def gwgErr (k : ℕ) (δ B : ℝ) : ℝ := k * δ + ((1 + f32u) ^ (k - 1) - 1) * (k * (B + δ))

theorem sumErr_nonneg (n : ℕ) : 0 ≤ (1 + f32u) ^ (n - 1) - 1 := by
  have : 1 ≤ (1 + f32u) ^ (n - 1) := one_le_pow₀ (by linarith [f32u_pos])
  linarith

theorem gwgErr_nonneg (k : ℕ) {δ B : ℝ} (h : 0 ≤ δ) (hB : 0 ≤ B) : 0 ≤ gwgErr k δ B := by
  have := sumErr_nonneg k
  unfold gwgErr; positivity

theorem gwgLlF_err {rd : ℝ → ℝ} (hrd : IsRound rd) {k : ℕ} {W l : Fin D → ℝ} {idx : Fin k → Fin D} {δ B r : ℝ}
    (hW : ∀ j, IsF32 (W j)) (hδ : ∀ j, |W j - l j| ≤ δ) (hB : ∀ i, |l (idx i)| ≤ B) (hr : GwgLlF rd W idx r) :
    |r - gwgLl l idx| ≤ gwgErr k δ B ∧ |gwgLl l idx| ≤ k * B := by
  have hs := (SumF.err hrd hr (by
    intro t ht'
    obtain ⟨j, rfl⟩ := (List.mem_ofFn' _ _).1 ht'
    exact hW _)).2
  rw [List.length_ofFn] at hs
  have h1 := list_sum_ofFn_err (T := fun i => W (idx i)) (t := fun i => l (idx i)) fun i => hδ (idx i)
  have h2 := list_abs_ofFn_le (T := fun i => W (idx i)) (B := B + δ) fun i => by
    have a := abs_le.1 (hδ (idx i))
    have b := abs_le.1 (hB i)
    rw [abs_le]; constructor <;> linarith
  have h3 := hs.trans (mul_le_mul_of_nonneg_left h2 (sumErr_nonneg k))
  unfold gwgLl
  constructor
  · unfold gwgErr
    have a := abs_le.1 h1
    have b := abs_le.1 h3
    rw [abs_le]; constructor <;> linarith
  · refine (Finset.abs_sum_le_sum_abs _ _).trans ((Finset.sum_le_sum fun i _ => hB i).trans (le_of_eq ?_))
    simp

theorem isProb_gwgDrawLawG {M : ℕ} (hM : 0 < M) (hD : 0 < D) {k : ℕ} (W : Fin D → ℝ) :
    IsProb (gwgDrawLawG (k := k) M W) := isProb_iid (isProb_categoricalG hM hD W)

theorem gwgDrawLawG_close {M : ℕ} (hM : 0 < M) (hM' : noiseMin < 1 / M) (hD : 0 < D) {k : ℕ} (W : Fin D → ℝ) :
    ∑ idx : Fin k → Fin D, |gwgDrawLawG M W idx - ∏ i, softmax W (idx i)| ≤ k * (2 * (D / M)) := by
  have : Nonempty (Fin D) := ⟨⟨0, hD⟩⟩
  refine (prodLaw_close (p := fun _ => categoricalG M W) (p' := fun _ => softmax W)
    (fun _ => isProb_categoricalG hM hD W) fun _ => isProb_softmax W).trans ?_
  refine (Finset.sum_le_sum fun i _ => categoricalG_close hM hM' hD W).trans (le_of_eq ?_)
  simp

/-- The gradient that makes the sampler propose with logits `W`. -/
noncomputable def gradOf (W : (Fin D → ℤ) → Fin D → ℝ) (x : Fin D → ℤ) (j : Fin D) : ℝ := (1 - 2 * (x j : ℝ)) * W x j

theorem gwgDist_gradOf (W : (Fin D → ℤ) → Fin D → ℝ) {x : Fin D → ℤ} (hx : x ∈ validStates 2 D) :
    gwgDist id none x (gradOf W x) = logSoftmax (W x) := by
  unfold gwgDist
  congr 1
  funext j
  have h := mem_validStates_two.1 hx j
  have : ((1 : ℝ) - 2 * (x j : ℝ)) * (1 - 2 * (x j : ℝ)) = 1 := by
    rcases h with h | h <;> rw [h] <;> norm_num
  show (1 - 2 * (x j : ℝ)) * gradOf W x j = W x j
  unfold gradOf
  rw [← mul_assoc, this, one_mul]

/-- **C108 (binary GWG).** In single precision, `n` steps with `k` flips move the target by at most an explicit amount.  The
table `W t x` of log-probabilities computed at `x` is arbitrary, up to its normalisation: `W` and the table `W₂` computed at
the proposal differ from `log_softmax W` by at most `δ`.  `B` bounds the log-probabilities of the draws that occur and of their
reversals; draws that do not occur (masked sites) are not constrained. -/
theorem gwgF_run (hD : 0 < D) {k : ℕ} {rd lg : ℝ → ℝ} (hrd : IsRound rd) {ρ : ℝ} (h0 : 0 ≤ ρ) (hlg : LogAcc ρ lg Real.log)
    {f : (Fin D → ℤ) → ℝ} {F₁ F₂ : ℕ → (Fin D → ℤ) → ℝ} {W W₂ : ℕ → (Fin D → ℤ) → Fin D → ℝ}
    {Lf Lr : ℕ → (Fin D → ℤ) → (Fin k → Fin D) → ℝ} {εE RE δ B : ℝ} {M : ℕ} (hM : 0 < M) (hM' : noiseMin < 1 / M)
    (hW : ∀ t x j, IsF32 (W t x j)) (hW₂ : ∀ t x j, IsF32 (W₂ t x j)) (hδ0 : 0 ≤ δ) (hB0 : 0 ≤ B)
    (hδ : ∀ t, ∀ x ∈ validStates 2 D, ∀ j, |W t x j - logSoftmax (W t x) j| ≤ δ)
    (hδ₂ : ∀ t, ∀ x ∈ validStates 2 D, ∀ j, |W₂ t x j - logSoftmax (W t x) j| ≤ δ)
    (hB : ∀ t, ∀ x ∈ validStates 2 D, ∀ idx : Fin k → Fin D, gwgDrawLawG M (W t x) idx ≠ 0 → ∀ i,
      |logSoftmax (W t x) (idx i)| ≤ B ∧ |logSoftmax (W t (gwgPropose x idx)) (idx i)| ≤ B)
    (hLf : ∀ t x idx, GwgLlF rd (W t x) idx (Lf t x idx))
    (hLr : ∀ t x idx, GwgLlF rd (W₂ t (gwgPropose x idx)) idx (Lr t x idx)) (hεE : 0 ≤ εE) (hRE : 0 ≤ RE)
    (h1 : ∀ t, ∀ x ∈ validStates 2 D, |F₁ t x - f x| ≤ εE) (h2 : ∀ t, ∀ x ∈ validStates 2 D, |F₂ t x - f x| ≤ εE)
    (hE : ∀ x ∈ validStates 2 D, |f x| ≤ RE) (n : ℕ) :
    NearlyInvariant (validStates 2 D) (fun x => Real.exp (f x))
      (iterate (validStates 2 D) (fun t => lbKernelF M rd lg (fun x => gwgDrawLawG M (W t x)) (F₁ t) (F₂ t) (Lf t) (Lr t)
        gwgPropose) n)
      (n * (2 * ((Real.exp (lbErr εE (gwgErr k δ B) RE (k * B) ρ) - 1) + mhTiny + 1 / M) + k * (2 * (D / M)))) := by
  have hne : Nonempty (Fin D) := ⟨⟨0, hD⟩⟩
  refine lbF_run (q := fun t => gwgDrawLaw (k := k) id (gradOf (W t)) none) (rev := fun _ _ idx => idx)
    (lf := fun t x idx => gwgLl (gwgDist id none x (gradOf (W t) x)) idx)
    (lr := fun t x idx => gwgLl (gwgDist id none (gwgPropose x idx) (gradOf (W t) (gwgPropose x idx))) idx)
    (fun t => gwg_pathMH hD k id f (gradOf (W t)) none) hrd h0 hlg (fun t x _ => isProb_gwgDrawLawG hM hD _)
    (fun t x hx idx _ => gwgPropose_valid hx idx) (fun t x hx => ?_) hεE (gwgErr_nonneg k hδ0 hB0) hRE (by positivity) h1 h2
    (fun t x hx idx hq => ?_) (fun t x hx idx hq => ?_) hE hM n
  · refine le_trans (le_of_eq (Finset.sum_congr rfl fun idx _ => ?_)) (gwgDrawLawG_close hM hM' hD (k := k) (W t x))
    unfold gwgDrawLaw
    rw [gwgDist_gradOf (W t) hx]
    simp only [softmax_logSoftmax]
  · rw [gwgDist_gradOf (W t) hx]
    exact gwgLlF_err hrd (hW t x) (hδ t x hx) (fun i => (hB t x hx idx hq i).1) (hLf t x idx)
  · rw [gwgDist_gradOf (W t) (gwgPropose_valid hx idx)]
    exact gwgLlF_err hrd (hW₂ t _) (hδ₂ t _ (gwgPropose_valid hx idx)) (fun i => (hB t x hx idx hq i).2) (hLr t x idx)

/-! ## Categorical DMALA and DLMC -/

/-- Error of the log-probability of the categories drawn at `D` sites. -/
noncomputable def categErr (D C : ℕ) (δ B : ℝ) : ℝ :=
  D * (δ + f32u * (B + δ)) + ((1 + f32u) ^ (D * C - 1) - 1) * (D * (B + δ + f32u * (B + δ)))

theorem categErr_nonneg (D C : ℕ) {δ B : ℝ} (h : 0 ≤ δ) (hB : 0 ≤ B) : 0 ≤ categErr D C δ B := by
  have := sumErr_nonneg (D * C)
  have := f32u_pos
  unfold categErr; positivity

theorem sum_divMod {C : ℕ} (φ : Fin D → Fin C → ℝ) :
    ∑ i : Fin (D * C), φ i.divNat i.modNat = ∑ j, ∑ c, φ j c := by
  rw [← Fintype.sum_prod_type' φ]
  exact (finProdFinEquiv.symm.sum_comp fun p : Fin D × Fin C => φ p.1 p.2)

theorem oneHot_categRow {C : ℕ} (v : Fin D → Fin C) (j : Fin D) (c : Fin C) :
    oneHotRow C (categRow v) j c = if c = v j then 1 else 0 := by
  unfold oneHotRow oneHot categRow
  have : (((v j : ℕ) : ℤ) = ((c : ℕ) : ℤ)) ↔ c = v j := by
    rw [Nat.cast_inj, ← Fin.ext_iff, eq_comm]
  by_cases h : c = v j
  · simp [h]
  · simp only [h, if_false]
    rw [if_neg]
    intro hh
    first
      | exact h (this.1 hh)
      | exact h (this.1 hh.symm)

theorem categLlF_err {C : ℕ} {rd : ℝ → ℝ} (hrd : IsRound rd) {W l : Fin D → Fin C → ℝ} {v : Fin D → Fin C} {δ B r : ℝ}
    (hδ : ∀ j c, |W j c - logSoftmax (l j) c| ≤ δ) (hB : ∀ j, |logSoftmax (l j) (v j)| ≤ B)
    (hr : CategLlF rd W (oneHotRow C (categRow v)) r) :
    |r - categLl l (oneHotRow C (categRow v))| ≤ categErr D C δ B ∧
      |categLl l (oneHotRow C (categRow v))| ≤ D * B := by
  have hs := (SumF.err hrd hr (by
    intro t ht'
    obtain ⟨j, rfl⟩ := (List.mem_ofFn' _ _).1 ht'
    exact hrd.f32 _)).2
  rw [List.length_ofFn] at hs
  have e0 : rd 0 = 0 := hrd.exact isF32_zero
  have hterm : ∀ j, |rd (W j (v j)) - logSoftmax (l j) (v j)| ≤ δ + f32u * (B + δ) := by
    intro j
    have a := abs_le.1 (hδ j (v j))
    have b := abs_le.1 (hB j)
    have c : |W j (v j)| ≤ B + δ := by rw [abs_le]; constructor <;> linarith
    have d := abs_le.1 ((hrd.rel (W j (v j))).trans (mul_le_mul_of_nonneg_left c f32u_pos.le))
    rw [abs_le]; constructor <;> linarith
  have hsum : (List.ofFn fun i : Fin (D * C) =>
      rd (W i.divNat i.modNat * oneHotRow C (categRow v) i.divNat i.modNat)).sum = ∑ j, rd (W j (v j)) := by
    rw [List.sum_ofFn, sum_divMod fun j c => rd (W j c * oneHotRow C (categRow v) j c)]
    refine Finset.sum_congr rfl fun j _ => ?_
    rw [Finset.sum_eq_single (v j)]
    · rw [oneHot_categRow, if_pos rfl, mul_one]
    · intro c _ hc
      rw [oneHot_categRow, if_neg hc, mul_zero, e0]
    · intro h; exact absurd (mem_univ _) h
  have habs : ((List.ofFn fun i : Fin (D * C) =>
      rd (W i.divNat i.modNat * oneHotRow C (categRow v) i.divNat i.modNat)).map abs).sum = ∑ j, |rd (W j (v j))| := by
    rw [List.map_ofFn, List.sum_ofFn]
    refine (sum_divMod fun j c => |rd (W j c * oneHotRow C (categRow v) j c)|).trans ?_
    refine Finset.sum_congr rfl fun j _ => ?_
    rw [Finset.sum_eq_single (v j)]
    · rw [oneHot_categRow, if_pos rfl, mul_one]
    · intro c _ hc
      rw [oneHot_categRow, if_neg hc, mul_zero, e0, abs_zero]
    · intro h; exact absurd (mem_univ _) h
  rw [hsum, habs] at hs
  have h2 : ∑ j, |rd (W j (v j))| ≤ D * (B + δ + f32u * (B + δ)) := by
    refine (Finset.sum_le_sum (g := fun _ => B + δ + f32u * (B + δ)) fun j _ => ?_).trans (le_of_eq (by
      rw [Finset.sum_const]; simp only [card_univ, Fintype.card_fin, nsmul_eq_mul]))
    have a := abs_le.1 (hterm j)
    have b := abs_le.1 (hB j)
    rw [abs_le]; constructor <;> linarith
  have h1 : |∑ j, rd (W j (v j)) - ∑ j, logSoftmax (l j) (v j)| ≤ D * (δ + f32u * (B + δ)) := by
    rw [← Finset.sum_sub_distrib]
    refine (Finset.abs_sum_le_sum_abs _ _).trans ((Finset.sum_le_sum fun j _ => hterm j).trans (le_of_eq (by
      rw [Finset.sum_const]; simp only [card_univ, Fintype.card_fin, nsmul_eq_mul])))
  have h3 := hs.trans (mul_le_mul_of_nonneg_left h2 (sumErr_nonneg (D * C)))
  rw [categLl_oneHot]
  constructor
  · unfold categErr
    have a := abs_le.1 h1
    have b := abs_le.1 h3
    rw [abs_le]; constructor <;> linarith
  · refine (Finset.abs_sum_le_sum_abs _ _).trans ((Finset.sum_le_sum fun i _ => hB i).trans (le_of_eq (by simp)))

theorem isProb_categLawG {C : ℕ} {M : ℕ} (hM : 0 < M) (hC : 0 < C) (l : Fin D → Fin C → ℝ) : IsProb (categLawG M l) :=
  isProb_pi fun j => isProb_categoricalG hM hC (l j)

theorem categLawG_close {C : ℕ} {M : ℕ} (hM : 0 < M) (hM' : noiseMin < 1 / M) (hC : 0 < C) (l : Fin D → Fin C → ℝ) :
    ∑ v : Fin D → Fin C, |categLawG M l v - categLaw l v| ≤ D * (2 * (C / M)) := by
  have : Nonempty (Fin C) := ⟨⟨0, hC⟩⟩
  refine (prodLaw_close (p := fun j => categoricalG M (l j)) (p' := fun j => softmax (l j))
    (fun j => isProb_categoricalG hM hC (l j)) fun j => isProb_softmax (l j)).trans ?_
  refine (Finset.sum_le_sum fun j _ => categoricalG_close hM hM' hC (l j)).trans (le_of_eq ?_)
  simp

section

variable {C : ℕ} {rd lg : ℝ → ℝ} {ρ : ℝ} {f : (Fin D → Fin C → ℝ) → ℝ} {F₁ F₂ : ℕ → (Fin D → ℤ) → ℝ}
  {l W W₂ : ℕ → (Fin D → ℤ) → Fin D → Fin C → ℝ} {Lf Lr : ℕ → (Fin D → ℤ) → (Fin D → Fin C) → ℝ} {εE RE δ B : ℝ} {M : ℕ}

/-- **C108 (categorical DMALA and DLMC).** In single precision, `n` steps move the target by at most an explicit amount.  The
logits `l t x` computed at `x` are arbitrary; `W` and `W₂` are the `log_softmax` of them computed at the start and at the
proposal, each within `δ`.  `B` bounds the log-probabilities of the draws that occur and of their reversals. -/
theorem categF_run (hC : 0 < C) (hrd : IsRound rd) (h0 : 0 ≤ ρ) (hlg : LogAcc ρ lg Real.log) (hM : 0 < M)
    (hM' : noiseMin < 1 / M) (hδ0 : 0 ≤ δ) (hB0 : 0 ≤ B)
    (hδ : ∀ t, ∀ x ∈ validStates C D, ∀ j c, |W t x j c - logSoftmax (l t x j) c| ≤ δ)
    (hδ₂ : ∀ t, ∀ x ∈ validStates C D, ∀ j c, |W₂ t x j c - logSoftmax (l t x j) c| ≤ δ)
    (hB : ∀ t, ∀ x ∈ validStates C D, ∀ v, categLawG M (l t x) v ≠ 0 → ∀ j,
      |logSoftmax (l t x j) (v j)| ≤ B ∧ |logSoftmax (l t (categRow v) j) (toCateg hC x j)| ≤ B)
    (hLf : ∀ t x v, CategLlF rd (W t x) (oneHotRow C (categRow v)) (Lf t x v))
    (hLr : ∀ t x v, CategLlF rd (W₂ t (categRow v)) (oneHotRow C x) (Lr t x v)) (hεE : 0 ≤ εE) (hRE : 0 ≤ RE)
    (h1 : ∀ t, ∀ x ∈ validStates C D, |F₁ t x - f (oneHotRow C x)| ≤ εE)
    (h2 : ∀ t, ∀ x ∈ validStates C D, |F₂ t x - f (oneHotRow C x)| ≤ εE)
    (hE : ∀ x ∈ validStates C D, |f (oneHotRow C x)| ≤ RE) (n : ℕ) :
    NearlyInvariant (validStates C D) (fun x => Real.exp (f (oneHotRow C x)))
      (iterate (validStates C D) (fun t => lbKernelF M rd lg (fun x => categLawG M (l t x)) (F₁ t) (F₂ t) (Lf t) (Lr t)
        fun _ v => categRow v) n)
      (n * (2 * ((Real.exp (lbErr εE (categErr D C δ B) RE (D * B) ρ) - 1) + mhTiny + 1 / M) + D * (2 * (C / M)))) := by
  refine lbF_run (f := fun x => f (oneHotRow C x)) (q := fun t x => categLaw (l t x)) (rev := fun _ x _ => toCateg hC x)
    (move := fun _ _ v => categRow v)
    (lf := fun t x v => categLl (l t x) (oneHotRow C (categRow v)))
    (lr := fun t x v => categLl (l t (categRow v)) (oneHotRow C x))
    (fun t => categ_pathMH hC f (l t)) hrd h0 hlg (fun t x _ => isProb_categLawG hM hC _)
    (fun t x hx v _ => categRow_valid v) (fun t x hx => categLawG_close hM hM' hC _) hεE (categErr_nonneg D C hδ0 hB0) hRE
    (by positivity) h1 h2 (fun t x hx v hq => ?_) (fun t x hx v hq => ?_) hE hM n
  · exact categLlF_err hrd (hδ t x hx) (fun j => (hB t x hx v hq j).1) (hLf t x v)
  · have hr := hLr t x v
    have e := categRow_toCateg hC hx
    have := categLlF_err (v := toCateg hC x) (r := Lr t x v) hrd (hδ₂ t _ (categRow_valid v))
      (fun j => (hB t x hx v hq j).2) (by rw [e]; exact hr)
    rwa [e] at this

/-- **C108 (categorical DMALA and DLMC, the errors do not accumulate).** When every category of every site has probability at
least `a` under the computed logits, the run converges to the target, down to an explicit floor. -/
theorem categF_converges (hC : 0 < C) (hrd : IsRound rd) (h0 : 0 ≤ ρ) (hlg : LogAcc ρ lg Real.log) (hM : 0 < M)
    (hM' : noiseMin < 1 / M) {a : ℝ} (ha : 0 < a) (hla : ∀ t, ∀ x ∈ validStates C D, ∀ j c, a ≤ softmax (l t x j) c)
    (hδ0 : 0 ≤ δ) (hB0 : 0 ≤ B)
    (hδ : ∀ t, ∀ x ∈ validStates C D, ∀ j c, |W t x j c - logSoftmax (l t x j) c| ≤ δ)
    (hδ₂ : ∀ t, ∀ x ∈ validStates C D, ∀ j c, |W₂ t x j c - logSoftmax (l t x j) c| ≤ δ)
    (hB : ∀ t, ∀ x ∈ validStates C D, ∀ v, categLawG M (l t x) v ≠ 0 → ∀ j,
      |logSoftmax (l t x j) (v j)| ≤ B ∧ |logSoftmax (l t (categRow v) j) (toCateg hC x j)| ≤ B)
    (hLf : ∀ t x v, CategLlF rd (W t x) (oneHotRow C (categRow v)) (Lf t x v))
    (hLr : ∀ t x v, CategLlF rd (W₂ t (categRow v)) (oneHotRow C x) (Lr t x v)) (hεE : 0 ≤ εE) (hRE : 0 ≤ RE)
    (h1 : ∀ t, ∀ x ∈ validStates C D, |F₁ t x - f (oneHotRow C x)| ≤ εE)
    (h2 : ∀ t, ∀ x ∈ validStates C D, |F₂ t x - f (oneHotRow C x)| ≤ εE)
    (hE : ∀ x ∈ validStates C D, |f (oneHotRow C x)| ≤ RE) :
    ConvergesWithin (validStates C D) (fun x => Real.exp (f (oneHotRow C x)))
      (fun t => lbKernelF M rd lg (fun x => categLawG M (l t x)) (F₁ t) (F₂ t) (Lf t) (Lr t) fun _ v => categRow v)
      1 (1 - a ^ D)
      ((2 * ((Real.exp (lbErr εE (categErr D C δ B) RE (D * B) ρ) - 1) + mhTiny + 1 / M) + D * (2 * (C / M))) / a ^ D) := by
  have hne : Nonempty (Fin C) := ⟨⟨0, hC⟩⟩
  have ha1 : a ^ D ≤ 1 := by
    rcases Nat.eq_zero_or_pos D with rfl | hD
    · simp
    · refine pow_le_one₀ ha.le ?_
      have h1 := hla 0 (categRow fun _ => ⟨0, hC⟩) (categRow_valid _) ⟨0, hD⟩ ⟨0, hC⟩
      have h2 := isProb_softmax (l 0 (categRow fun _ => ⟨0, hC⟩) ⟨0, hD⟩)
      exact h1.trans ((Finset.single_le_sum (fun c _ => h2.1 c) (mem_univ _)).trans_eq h2.2)
  refine lbF_converges (f := fun x => f (oneHotRow C x)) (q := fun t x => categLaw (l t x)) (rev := fun _ x _ => toCateg hC x)
    (move := fun _ _ v => categRow v)
    (lf := fun t x v => categLl (l t x) (oneHotRow C (categRow v)))
    (lr := fun t x v => categLl (l t (categRow v)) (oneHotRow C x))
    (fun t => categ_pathMH hC f (l t)) hrd h0 hlg (fun t x _ => isProb_categLawG hM hC _)
    (fun t x hx v _ => categRow_valid v) (by positivity) (fun t x hx => categLawG_close hM hM' hC _) hεE
    (categErr_nonneg D C hδ0 hB0) hRE
    (by positivity) h1 h2 (fun t x hx v hq => ?_) (fun t x hx v hq => ?_) hE hM (by positivity) ha1
    (fun t x hx y hy => ⟨toCateg hC y, categRow_toCateg hC hy, ?_, ?_⟩)
  · exact categLlF_err hrd (hδ t x hx) (fun j => (hB t x hx v hq j).1) (hLf t x v)
  · have hr := hLr t x v
    have e := categRow_toCateg hC hx
    have := categLlF_err (v := toCateg hC x) (r := Lr t x v) hrd (hδ₂ t _ (categRow_valid v))
      (fun j => (hB t x hx v hq j).2) (by rw [e]; exact hr)
    rwa [e] at this
  · exact pow_le_prod ha.le fun j => hla t x hx j _
  · exact pow_le_prod ha.le fun j => hla t y hy j _

end

end Discs
