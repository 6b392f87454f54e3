import Verif.Spec.PathMean
import Verif.Spec.Trap
import Verif.Props.AdaptiveRW
import Verif.Lemmas.LocallyBalanced

/-!
# Lemmas on whole runs of the random walk

The state of the random walk matters only through its radius, so the expectation over a run reduces to a recursion
on radii.
-/

namespace Discs

open Finset Spec MeasureTheory

variable {D : ℕ}

/-- Expectation of `Φ` of the path of a random walk whose radius changes by `nx` with the acceptance ratio. -/
noncomputable def rwRun (Φ : List (Fin D → ℤ) → ℝ) (nx : ℝ → ℝ → ℝ) (tiny : ℝ) (C : ℕ)
    (f : ℕ → (Fin D → ℤ) → ℝ) : ℕ → ℕ → ℝ → List (Fin D → ℤ) → (Fin D → ℤ) → ℝ
  | 0, _, _, h, x => Φ (h ++ [x])
  | n + 1, k, r, h, x => ∑ d, rwDrawLaw C D r d *
      (acceptProb tiny (f k (rwPropose x d) - f k x) *
          rwRun Φ nx tiny C f n (k + 1) (nx r (Real.exp (clipMax (f k (rwPropose x d) - f k x) 0))) (h ++ [x])
            (rwPropose x d) +
        (1 - acceptProb tiny (f k (rwPropose x d) - f k x)) *
          rwRun Φ nx tiny C f n (k + 1) (nx r (Real.exp (clipMax (f k (rwPropose x d) - f k x) 0))) (h ++ [x]) x)

/-- How the radius of the random walk changes. -/
noncomputable def rwNext (D : ℕ) (adaptive : Bool) (t r a : ℝ) : ℝ := if adaptive then clip (r + a - t) 1 D else r

theorem rwRun_eq (adaptive : Bool) (Φ : List (Fin D → ℤ) → ℝ) (t : ℝ) {tiny : ℝ} (ht : 0 ≤ tiny) (C : ℕ)
    (f : ℕ → (Fin D → ℤ) → ℝ) (n : ℕ) : ∀ (k : ℕ) (s : RWState) (h : List (Fin D → ℤ)) (x : Fin D → ℤ),
      pathExpect (fun _ => rwLaws C) (fun k => rwMove adaptive t tiny (f k) C) Φ n k s h x =
        rwRun Φ (rwNext D adaptive t) tiny C f n k s.radius h x := by
  classical
  induction n with
  | zero => intro k s h x; rfl
  | succ n ih =>
    intro k s h x
    rw [pathExpect, rwRun]
    refine Finset.sum_congr rfl fun d _ => ?_
    rw [← integral_accept ht]
    congr 1
    refine setIntegral_congr_fun measurableSet_Ico fun u _ => ?_
    have hr : (rwMove adaptive t tiny (f k) C s x d u).2.radius =
        rwNext D adaptive t s.radius (Real.exp (clipMax (f k (rwPropose x d) - f k x) 0)) := by
      cases adaptive
      · rfl
      · exact rwMove_radius _ _ _ _ _ _ _ _
    simp only [ih, hr]
    by_cases hb : bernoulliLogp tiny u (f k (rwPropose x d) - f k x)
    · rw [rwMove_accept hb, if_pos hb]
    · rw [rwMove_reject hb, if_neg hb]

section bounds

variable {Φ : List (Fin D → ℤ) → ℝ} {nx : ℝ → ℝ → ℝ} {tiny : ℝ} {C : ℕ} {f : ℕ → (Fin D → ℤ) → ℝ}

/-- A lower bound for every continuation is one for the step. -/
theorem rwRun_succ_ge (hC : 2 ≤ C) {n k : ℕ} {r : ℝ} (h0 : 0 ≤ r) (h1 : r ≤ D) {h : List (Fin D → ℤ)}
    {x : Fin D → ℤ} {v : ℝ}
    (hv : ∀ d : RWDraw C D, rwDrawLaw C D r d ≠ 0 → ∀ y, y = x ∨ y = rwPropose x d → v ≤ rwRun Φ nx tiny C f n (k + 1)
      (nx r (Real.exp (clipMax (f k (rwPropose x d) - f k x) 0))) (h ++ [x]) y) :
    v ≤ rwRun Φ nx tiny C f (n + 1) k r h x := by
  have hp := isProb_rwDrawLaw (D := D) hC h0 h1
  rw [rwRun]
  calc v = ∑ d, rwDrawLaw C D r d * v := by rw [← Finset.sum_mul, hp.2, one_mul]
    _ ≤ _ := Finset.sum_le_sum fun d _ => ?_
  by_cases h0 : rwDrawLaw C D r d = 0
  · rw [h0, zero_mul, zero_mul]
  refine mul_le_mul_of_nonneg_left ?_ (hp.1 d)
  have e1 := hv d h0 _ (Or.inr rfl)
  have e2 := hv d h0 _ (Or.inl rfl)
  have a0 := acceptProb_nonneg tiny (f k (rwPropose x d) - f k x)
  have a1 := acceptProb_le_one tiny (f k (rwPropose x d) - f k x)
  nlinarith

/-- One draw of probability at least `p` after which the bound is better by `w`. -/
theorem rwRun_succ_gain (hC : 2 ≤ C) {n k : ℕ} {r : ℝ} (h0 : 0 ≤ r) (h1 : r ≤ D) {h : List (Fin D → ℤ)}
    {x : Fin D → ℤ} {v w p : ℝ} (hw : 0 ≤ w)
    (hv : ∀ d : RWDraw C D, ∀ y, y = x ∨ y = rwPropose x d → v ≤ rwRun Φ nx tiny C f n (k + 1)
      (nx r (Real.exp (clipMax (f k (rwPropose x d) - f k x) 0))) (h ++ [x]) y)
    {d₀ : RWDraw C D} (hp₀ : p ≤ rwDrawLaw C D r d₀)
    (hd : ∀ y, y = x ∨ y = rwPropose x d₀ → v + w ≤ rwRun Φ nx tiny C f n (k + 1)
      (nx r (Real.exp (clipMax (f k (rwPropose x d₀) - f k x) 0))) (h ++ [x]) y) :
    v + p * w ≤ rwRun Φ nx tiny C f (n + 1) k r h x := by
  classical
  have hp := isProb_rwDrawLaw (D := D) hC h0 h1
  rw [rwRun]
  calc v + p * w ≤ v + rwDrawLaw C D r d₀ * w := by nlinarith
    _ = ∑ d, rwDrawLaw C D r d * (v + if d = d₀ then w else 0) := by
      simp only [mul_add, Finset.sum_add_distrib, mul_ite, mul_zero]
      rw [← Finset.sum_mul, hp.2, one_mul, Finset.sum_ite_eq', if_pos (mem_univ _)]
    _ ≤ _ := Finset.sum_le_sum fun d _ => mul_le_mul_of_nonneg_left ?_ (hp.1 d)
  have a0 := acceptProb_nonneg tiny (f k (rwPropose x d) - f k x)
  have a1 := acceptProb_le_one tiny (f k (rwPropose x d) - f k x)
  split_ifs with e
  · subst e
    have e1 := hd _ (Or.inr rfl)
    have e2 := hd _ (Or.inl rfl)
    nlinarith
  · have e1 := hv d _ (Or.inr rfl)
    have e2 := hv d _ (Or.inl rfl)
    nlinarith

end bounds

/-! ### Two categories -/

theorem complement_complement (x : Fin D → ℤ) : complement (complement x) = x := by
  funext j; simp [complement]

theorem complement_valid {x : Fin D → ℤ} (hx : x ∈ validStates 2 D) : complement x ∈ validStates 2 D := by
  rw [mem_validStates_two] at *
  intro j
  have := hx j
  unfold complement
  omega

/-- The draw that changes no site, and the one that changes every site. -/
def uniformDraw (D : ℕ) (b : Bool) : RWDraw 2 D := (fun _ => b, fun _ => 0)

theorem rwPropose_uniform {x : Fin D → ℤ} (hx : x ∈ validStates 2 D) (b : Bool) :
    rwPropose x (uniformDraw D b) = if b then complement x else x := by
  have hx' := mem_validStates_two.1 hx
  cases b
  · funext j
    have := hx' j
    simp only [rwPropose, uniformDraw, Bool.false_eq_true, if_false]
    omega
  · funext j
    have := hx' j
    simp only [rwPropose, uniformDraw, if_true, complement]
    simp only [Fin.isValue, Fin.val_zero, Nat.cast_zero]
    omega

theorem rwDrawLaw_uniform (r : ℝ) (b : Bool) :
    rwDrawLaw 2 D r (uniformDraw D b) = (if b then r / D else 1 - r / D) ^ D := by
  cases b <;> simp [rwDrawLaw, uniformDraw, div_pow]

/-- At radius `dim` every site changes. -/
theorem rwDrawLaw_full (hD : 0 < D) {d : RWDraw 2 D} (hd : d ≠ uniformDraw D true) : rwDrawLaw 2 D D d = 0 := by
  have hD' : (D : ℝ) ≠ 0 := by exact_mod_cast hD.ne'
  obtain ⟨j, hj⟩ : ∃ j, d.1 j = false := by
    by_contra hc
    push Not at hc
    refine hd (Prod.ext (funext fun j => ?_) (funext fun j => Subsingleton.elim (α := Fin 1) _ _))
    simpa [uniformDraw] using hc j
  exact Finset.prod_eq_zero (mem_univ j) (by simp [hj, div_self hD'])

/-- One of the two draws has probability at least `2 ^ -dim`. -/
theorem exists_uniformDraw (r : ℝ) :
    ∃ b, (1 / 2 : ℝ) ^ D ≤ rwDrawLaw 2 D r (uniformDraw D b) := by
  by_cases h : 1 / 2 ≤ r / D
  · exact ⟨true, by rw [rwDrawLaw_uniform]; exact pow_le_pow_left₀ (by norm_num) (by simpa using h) D⟩
  · refine ⟨false, ?_⟩
    rw [rwDrawLaw_uniform]
    refine pow_le_pow_left₀ (by norm_num) ?_ D
    simp only [Bool.false_eq_true, if_false]
    linarith [not_le.1 h]

/-! ### The adaptive radius -/

theorem rwNext_mem (hD : 0 < D) (t r a : ℝ) : 1 ≤ rwNext D true t r a ∧ rwNext D true t r a ≤ D := by
  have : (1 : ℝ) ≤ D := by exact_mod_cast hD
  simp only [rwNext, if_true, clip]
  exact ⟨le_min (le_max_right _ _) this, min_le_right _ _⟩

section adaptive

variable {Φ : List (Fin D → ℤ) → ℝ} {t tiny : ℝ} {f : ℕ → (Fin D → ℤ) → ℝ}

/-- A bound on `Φ` is one on its expectation. -/
theorem rwRun_ge_const (hD : 0 < D) {C : ℕ} (hC : 2 ≤ C) {b : ℝ} (hb : ∀ l, b ≤ Φ l) (n : ℕ) :
    ∀ (k : ℕ) (r : ℝ), 0 ≤ r → r ≤ D → ∀ (h : List (Fin D → ℤ)) (x : Fin D → ℤ),
      b ≤ rwRun Φ (rwNext D true t) tiny C f n k r h x := by
  induction n with
  | zero => intro k r _ _ h x; exact hb _
  | succ n ih =>
    intro k r h0 h1 h x
    refine rwRun_succ_ge hC h0 h1 fun d _ y _ => ih _ _ ?_ ?_ _ _
    · linarith [(rwNext_mem hD t r (Real.exp (clipMax (f k (rwPropose x d) - f k x) 0))).1]
    · exact (rwNext_mem hD t r _).2

theorem rwNext_full (hD : 0 < D) (ht : t ≤ 1) : rwNext D true t D 1 = D := by
  have : (1 : ℝ) ≤ D := by exact_mod_cast hD
  simp only [rwNext, if_true, clip]
  rw [max_eq_left (by linarith), min_eq_right (by linarith)]

/-- A radius that grows by `g` each step reaches `dim`. -/
theorem rwNext_climb (hD : 0 < D) {r g a : ℝ} {N : ℕ} (h1 : 1 ≤ r) (hg : 0 ≤ g) (ha : g + t ≤ a)
    (hN : (D : ℝ) ≤ r + (N + 1 : ℕ) * g) : (D : ℝ) ≤ rwNext D true t r a + N * g := by
  have : (1 : ℝ) ≤ D := by exact_mod_cast hD
  simp only [rwNext, if_true, clip]
  have hm : max (r + a - t) 1 = r + a - t := max_eq_left (by linarith)
  rw [hm]
  push_cast at hN
  have hn : (0 : ℝ) ≤ N * g := mul_nonneg (Nat.cast_nonneg _) hg
  rcases le_total (r + a - t) (D : ℝ) with h | h
  · rw [min_eq_left h]; nlinarith
  · rw [min_eq_right h]; linarith

theorem clipMax_zero' : Real.exp (clipMax 0 0) = 1 := by simp [clipMax]

theorem sym_diff (hs : ∀ k, FlipSymmetric (f k)) {x : Fin D → ℤ} (hx : x ∈ validStates 2 D) (b : Bool) (k : ℕ) :
    f k (rwPropose x (uniformDraw D b)) - f k x = 0 := by
  rw [rwPropose_uniform hx]
  cases b
  · simp
  · simp [hs k x]

/-- At radius `dim` the run stays in the pair. -/
theorem rwRun_trap (hD : 0 < D) (ht : t ≤ 1) (hs : ∀ k, FlipSymmetric (f k)) {v : ℝ} (n : ℕ) :
    ∀ (k : ℕ) (h : List (Fin D → ℤ)) (x : Fin D → ℤ), x ∈ validStates 2 D →
      (∀ l : List (Fin D → ℤ), (∀ y ∈ l, y = x ∨ y = complement x) → v ≤ Φ (h ++ l)) →
      v ≤ rwRun Φ (rwNext D true t) tiny 2 f n k D h x := by
  induction n with
  | zero => intro k h x _ hΦ; exact hΦ [x] (by simp)
  | succ n ih =>
    intro k h x hx hΦ
    refine rwRun_succ_ge le_rfl (Nat.cast_nonneg _) le_rfl fun d hd y hy => ?_
    obtain rfl : d = uniformDraw D true := by
      by_contra hc; exact hd (rwDrawLaw_full hD hc)
    rw [sym_diff hs hx, clipMax_zero', rwNext_full hD ht]
    have hy' : y = x ∨ y = complement x := by rwa [rwPropose_uniform hx, if_pos rfl] at hy
    have hpair : ∀ z : Fin D → ℤ, z = y ∨ z = complement y → z = x ∨ z = complement x := by
      rcases hy' with rfl | rfl
      · exact fun z hz => hz
      · intro z hz; rw [complement_complement] at hz; exact hz.symm
    refine ih _ _ _ ?_ fun l hl => ?_
    · rcases hy' with rfl | rfl
      · exact hx
      · exact complement_valid hx
    · rw [List.append_assoc]
      refine hΦ _ fun z hz => ?_
      rcases List.mem_append.1 hz with hz | hz
      · exact Or.inl (List.mem_singleton.1 hz)
      · exact hpair z (hl z hz)

/-- With the probability that the next `N` draws change no site or all of them, the run gets into the trap and
never leaves the pair. -/
theorem rwRun_climb (hD : 0 < D) (ht : t ≤ 1) (hs : ∀ k, FlipSymmetric (f k)) {b v : ℝ} (hbv : b ≤ v)
    (hb : ∀ l, b ≤ Φ l) (N : ℕ) :
    ∀ (n k : ℕ) (r : ℝ), 1 ≤ r → r ≤ D → (D : ℝ) ≤ r + N * (1 - t) →
      ∀ (h : List (Fin D → ℤ)) (x : Fin D → ℤ), x ∈ validStates 2 D →
      (∀ l : List (Fin D → ℤ), (∀ y ∈ l, y = x ∨ y = complement x) → v ≤ Φ (h ++ l)) →
      b + (1 / 2 : ℝ) ^ (D * N) * (v - b) ≤ rwRun Φ (rwNext D true t) tiny 2 f n k r h x := by
  induction N with
  | zero =>
    intro n k r _ h1 hN h x hx hΦ
    obtain rfl : r = D := le_antisymm h1 (by simpa using hN)
    have := rwRun_trap (Φ := Φ) (tiny := tiny) hD ht hs n k h x hx hΦ
    simpa using this
  | succ N ih =>
    intro n k r h0 h1 hN h x hx hΦ
    have hq : (1 / 2 : ℝ) ^ (D * (N + 1)) ≤ 1 := pow_le_one₀ (by norm_num) (by norm_num)
    cases n with
    | zero =>
      have h2 : v ≤ Φ (h ++ [x]) := hΦ [x] (by simp)
      show _ ≤ Φ (h ++ [x])
      nlinarith
    | succ n =>
      obtain ⟨c, hc⟩ := exists_uniformDraw (D := D) r
      have := rwRun_succ_gain (Φ := Φ) (nx := rwNext D true t) (tiny := tiny) (f := f) (n := n) (k := k) (h := h)
        (x := x) (v := b) (w := (1 / 2 : ℝ) ^ (D * N) * (v - b)) le_rfl (by linarith : 0 ≤ r) h1
        (mul_nonneg (by positivity) (by linarith))
        (fun d y _ => rwRun_ge_const hD le_rfl hb n _ _ (by linarith [(rwNext_mem hD t r
          (Real.exp (clipMax (f k (rwPropose x d) - f k x) 0))).1]) (rwNext_mem hD t r _).2 _ _) hc
        (fun y hy => ?_)
      · rw [mul_add, mul_one, pow_add]
        calc _ = b + (1 / 2 : ℝ) ^ D * ((1 / 2 : ℝ) ^ (D * N) * (v - b)) := by ring
          _ ≤ _ := this
      · rw [sym_diff hs hx, clipMax_zero']
        have hy' : y = x ∨ y = complement x := by
          rw [rwPropose_uniform hx] at hy
          cases c
          · left; simpa using hy
          · simpa using hy
        have hpair : ∀ z : Fin D → ℤ, z = y ∨ z = complement y → z = x ∨ z = complement x := by
          rcases hy' with rfl | rfl
          · exact fun z hz => hz
          · intro z hz; rw [complement_complement] at hz; exact hz.symm
        refine ih n _ _ (rwNext_mem hD t r 1).1 (rwNext_mem hD t r 1).2
          (rwNext_climb hD h0 (by linarith) (by linarith) hN) _ _ ?_ fun l hl => ?_
        · rcases hy' with rfl | rfl
          · exact hx
          · exact complement_valid hx
        · rw [List.append_assoc]
          refine hΦ _ fun z hz => ?_
          rcases List.mem_append.1 hz with hz | hz
          · exact Or.inl (List.mem_singleton.1 hz)
          · exact hpair z (hl z hz)

end adaptive

theorem stuckFrom_append {i : ℕ} {h l : List (Fin D → ℤ)} (hi : h.length ≤ i) {x : Fin D → ℤ}
    (hl : ∀ y ∈ l, y = x ∨ y = complement x) : StuckFrom i (h ++ l) := by
  refine ⟨x, fun y hy => hl y ?_⟩
  rw [List.drop_append, List.drop_eq_nil_of_le hi, List.nil_append] at hy
  exact List.mem_of_mem_drop hy

theorem indic_nonneg {X : Type*} (P : X → Prop) (x : X) : 0 ≤ indic P x := by
  unfold indic; split_ifs <;> norm_num

theorem indic_of {X : Type*} {P : X → Prop} {x : X} (h : P x) : indic P x = 1 := if_pos h

/-- Every `N` steps the run gets another chance to be trapped. -/
theorem rwRun_stuck (hD : 0 < D) {t tiny : ℝ} (ht : t ≤ 1) {f : ℕ → (Fin D → ℤ) → ℝ}
    (hs : ∀ k, FlipSymmetric (f k)) {N : ℕ} (hN : (D : ℝ) ≤ 1 + N * (1 - t)) (i m : ℕ) :
    ∀ (n k : ℕ) (r : ℝ), 1 ≤ r → r ≤ D → ∀ (h : List (Fin D → ℤ)) (x : Fin D → ℤ), x ∈ validStates 2 D →
      h.length + m * N ≤ i → i ≤ h.length + n →
      1 - (1 - (1 / 2 : ℝ) ^ (D * N)) ^ m ≤
        rwRun (indic (StuckFrom i)) (rwNext D true t) tiny 2 f n k r h x := by
  induction m with
  | zero =>
    intro n k r h0 h1 h x _ _ _
    rw [pow_zero, sub_self]
    exact rwRun_ge_const hD le_rfl (indic_nonneg _) n k r (by linarith) h1 h x
  | succ m ihm =>
    set q : ℝ := (1 / 2 : ℝ) ^ (D * N) with hq
    have q0 : 0 ≤ q := by positivity
    have q1 : q ≤ 1 := pow_le_one₀ (by norm_num) (by norm_num)
    set v : ℝ := 1 - (1 - q) ^ m with hv
    have hv1 : 0 ≤ 1 - v := by rw [hv]; have := pow_nonneg (by linarith : 0 ≤ 1 - q) m; linarith
    have block : ∀ (N' n k : ℕ) (r : ℝ), 1 ≤ r → r ≤ D → (D : ℝ) ≤ r + (N' : ℕ) * (1 - t) →
        ∀ (h : List (Fin D → ℤ)) (x : Fin D → ℤ), x ∈ validStates 2 D →
        h.length + N' + m * N ≤ i → i ≤ h.length + n →
        v + (1 / 2 : ℝ) ^ (D * N') * (1 - v) ≤
          rwRun (indic (StuckFrom i)) (rwNext D true t) tiny 2 f n k r h x := by
      intro N'
      induction N' with
      | zero =>
        intro n k r _ h1 hr h x hx hi _
        obtain rfl : r = D := le_antisymm h1 (by simpa using hr)
        have := rwRun_trap (Φ := indic (StuckFrom i)) (tiny := tiny) (v := 1) hD ht hs n k h x hx fun l hl =>
          (indic_of (stuckFrom_append (by omega) hl)).ge
        simpa using this
      | succ N' ih =>
        intro n k r h0 h1 hr h x hx hi hn
        obtain ⟨n, rfl⟩ : ∃ n', n = n' + 1 := ⟨n - 1, by omega⟩
        obtain ⟨c, hc⟩ := exists_uniformDraw (D := D) r
        have hval : ∀ d : RWDraw 2 D, ∀ y, y = x ∨ y = rwPropose x d → y ∈ validStates 2 D := by
          rintro d y (rfl | rfl)
          · exact hx
          · exact rwPropose_valid (by omega) x d
        have hlen : (h ++ [x]).length = h.length + 1 := by simp
        have := rwRun_succ_gain (Φ := indic (StuckFrom i)) (nx := rwNext D true t) (tiny := tiny) (f := f) (n := n)
          (k := k) (h := h) (x := x) (v := v) (w := (1 / 2 : ℝ) ^ (D * N') * (1 - v)) le_rfl
          (by linarith : 0 ≤ r) h1 (mul_nonneg (by positivity) hv1)
          (fun d y hy => ihm n _ _ (rwNext_mem hD t r _).1 (rwNext_mem hD t r _).2 _ _ (hval d y hy)
            (by omega) (by omega)) hc
          (fun y hy => ?_)
        · rw [mul_add, mul_one, pow_add]
          calc _ = v + (1 / 2 : ℝ) ^ D * ((1 / 2 : ℝ) ^ (D * N') * (1 - v)) := by ring
            _ ≤ _ := this
        · rw [sym_diff hs hx, clipMax_zero']
          exact ih n _ _ (rwNext_mem hD t r 1).1 (rwNext_mem hD t r 1).2
            (rwNext_climb hD h0 (by linarith) (by linarith) hr) _ _ (hval _ y hy) (by omega) (by omega)
    intro n k r h0 h1 h x hx hi hn
    have := block N n k r h0 h1 (by linarith) h x hx (by rw [add_mul, one_mul] at hi; omega) hn
    calc 1 - (1 - q) ^ (m + 1) = v + q * (1 - v) := by rw [hv]; ring
      _ ≤ _ := this

/-- Where every move is accepted often enough the radius climbs to `dim` whatever is drawn. -/
theorem rwRun_hot (hD : 0 < D) {t tiny g : ℝ} (ht : t ≤ 1) (hg : 0 ≤ g) {f : ℕ → (Fin D → ℤ) → ℝ}
    (hs : ∀ k, FlipSymmetric (f k)) {i : ℕ} (N : ℕ) :
    ∀ (n k : ℕ) (r : ℝ), 1 ≤ r → r ≤ D → (D : ℝ) ≤ r + N * g →
      (∀ k', k ≤ k' → k' < k + N → ∀ x ∈ validStates 2 D, ∀ y ∈ validStates 2 D,
        g + t ≤ Real.exp (clipMax (f k' y - f k' x) 0)) →
      ∀ (h : List (Fin D → ℤ)) (x : Fin D → ℤ), x ∈ validStates 2 D → h.length + N ≤ i → i ≤ h.length + n →
      1 ≤ rwRun (indic (StuckFrom i)) (rwNext D true t) tiny 2 f n k r h x := by
  induction N with
  | zero =>
    intro n k r _ h1 hr _ h x hx hi _
    obtain rfl : r = D := le_antisymm h1 (by simpa using hr)
    exact rwRun_trap hD ht hs n k h x hx fun l hl => (indic_of (stuckFrom_append (by omega) hl)).ge
  | succ N ih =>
    intro n k r h0 h1 hr hf h x hx hi hn
    obtain ⟨n, rfl⟩ : ∃ n', n = n' + 1 := ⟨n - 1, by omega⟩
    refine rwRun_succ_ge le_rfl (by linarith) h1 fun d _ y hy => ?_
    have hlen : (h ++ [x]).length = h.length + 1 := by simp
    have hp := rwPropose_valid (C := 2) (by omega) x d
    refine ih n _ _ (rwNext_mem hD t r _).1 (rwNext_mem hD t r _).2
      (rwNext_climb hD h0 hg (hf k le_rfl (by omega) x hx _ hp) hr)
      (fun k' h1 h2 => hf k' (by omega) (by omega)) _ _ ?_ (by omega) (by omega)
    rcases hy with rfl | rfl
    · exact hx
    · exact hp

/-! ### Hitting a sample -/

theorem rwDrawLaw_le_one {C : ℕ} (hC : 2 ≤ C) {r : ℝ} (h0 : 0 ≤ r) (h1 : r ≤ D) (d : RWDraw C D) :
    rwDrawLaw C D r d ≤ 1 := by
  have hp := isProb_rwDrawLaw (D := D) hC h0 h1
  rw [← hp.2]
  exact Finset.single_le_sum (fun e _ => hp.1 e) (mem_univ d)

section hits

variable {Φ : List (Fin D → ℤ) → ℝ} {nx : ℝ → ℝ → ℝ} {tiny : ℝ} {C : ℕ} {f : ℕ → (Fin D → ℤ) → ℝ} {I : Set ℝ}

theorem rwRun_ge_of (hC : 2 ≤ C) (hI : ∀ r ∈ I, 0 ≤ r ∧ r ≤ D) (hnx : ∀ r ∈ I, ∀ a, nx r a ∈ I) {b : ℝ} (n : ℕ) :
    ∀ (k : ℕ) (r : ℝ), r ∈ I → ∀ (h : List (Fin D → ℤ)) (x : Fin D → ℤ), (∀ l, b ≤ Φ (h ++ l)) →
      b ≤ rwRun Φ nx tiny C f n k r h x := by
  induction n with
  | zero => intro k r _ h x hb; exact hb _
  | succ n ih =>
    intro k r hr h x hb
    refine rwRun_succ_ge hC (hI r hr).1 (hI r hr).2 fun d _ y _ => ih _ _ (hnx r hr _) _ _ fun l => ?_
    rw [List.append_assoc]
    exact hb _

/-- One proposal of probability at least `p`, accepted with probability at least `α`, after which the bound is better
by `w`. -/
theorem rwRun_succ_acc (hC : 2 ≤ C) {n k : ℕ} {r : ℝ} (h0 : 0 ≤ r) (h1 : r ≤ D) {h : List (Fin D → ℤ)}
    {x : Fin D → ℤ} {v w p α : ℝ} (hw : 0 ≤ w) (hα : 0 ≤ α)
    (hv : ∀ d : RWDraw C D, ∀ y, y = x ∨ y = rwPropose x d → v ≤ rwRun Φ nx tiny C f n (k + 1)
      (nx r (Real.exp (clipMax (f k (rwPropose x d) - f k x) 0))) (h ++ [x]) y)
    {d₀ : RWDraw C D} (hp₀ : p ≤ rwDrawLaw C D r d₀) (ha : α ≤ acceptProb tiny (f k (rwPropose x d₀) - f k x))
    (hd : v + w ≤ rwRun Φ nx tiny C f n (k + 1)
      (nx r (Real.exp (clipMax (f k (rwPropose x d₀) - f k x) 0))) (h ++ [x]) (rwPropose x d₀)) :
    v + p * α * w ≤ rwRun Φ nx tiny C f (n + 1) k r h x := by
  classical
  have hp := isProb_rwDrawLaw (D := D) hC h0 h1
  rw [rwRun]
  have hαw : 0 ≤ α * w := mul_nonneg hα hw
  calc v + p * α * w ≤ v + rwDrawLaw C D r d₀ * (α * w) := by nlinarith
    _ = ∑ d, rwDrawLaw C D r d * (v + if d = d₀ then α * w else 0) := by
      simp only [mul_add, Finset.sum_add_distrib, mul_ite, mul_zero]
      rw [← Finset.sum_mul, hp.2, one_mul, Finset.sum_ite_eq', if_pos (mem_univ _)]
    _ ≤ _ := Finset.sum_le_sum fun d _ => mul_le_mul_of_nonneg_left ?_ (hp.1 d)
  have a0 := acceptProb_nonneg tiny (f k (rwPropose x d) - f k x)
  have a1 := acceptProb_le_one tiny (f k (rwPropose x d) - f k x)
  have e1 := hv d _ (Or.inr rfl)
  have e2 := hv d _ (Or.inl rfl)
  split_ifs with e
  · subst e
    have e3 : acceptProb tiny (f k (rwPropose x d) - f k x) * (v + w) ≤ _ := mul_le_mul_of_nonneg_left hd a0
    have e4 := mul_le_mul_of_nonneg_left e2 (by linarith : 0 ≤ 1 - acceptProb tiny (f k (rwPropose x d) - f k x))
    have e5 := mul_le_mul_of_nonneg_right ha hw
    nlinarith
  · nlinarith

theorem acceptProb_floor {R l : ℝ} (hy : 0 ≤ tiny) (hR : 0 ≤ R) (h : -R ≤ l) :
    Real.exp (-R) - tiny ≤ acceptProb tiny l := by
  unfold acceptProb
  refine le_max_of_le_right (le_min ?_ ?_)
  · have := Real.exp_le_one_iff.2 (by linarith : -R ≤ 0)
    linarith
  · have := Real.exp_le_exp.2 h
    linarith

theorem rwRun_hit_now (hC : 2 ≤ C) (hI : ∀ r ∈ I, 0 ≤ r ∧ r ≤ D) (hnx : ∀ r ∈ I, ∀ a, nx r a ∈ I)
    {y : Fin D → ℤ} (n k : ℕ) {r : ℝ} (hr : r ∈ I) (h : List (Fin D → ℤ)) :
    1 ≤ rwRun (indic fun path => y ∈ path) nx tiny C f n k r h y := by
  cases n with
  | zero => exact (indic_of (P := fun path => y ∈ path) (by simp)).ge
  | succ n =>
    refine rwRun_succ_ge hC (hI r hr).1 (hI r hr).2 fun d _ z _ =>
      rwRun_ge_of hC hI hnx n _ _ (hnx r hr _) _ _ fun l => ?_
    exact (indic_of (P := fun path => y ∈ path) (by simp)).ge

theorem rwRun_hits (hC : 2 ≤ C) (hI : ∀ r ∈ I, 0 ≤ r ∧ r ≤ D) (hnx : ∀ r ∈ I, ∀ a, nx r a ∈ I) (hy : 0 ≤ tiny)
    {R : ℝ} (hα : tiny ≤ Real.exp (-R))
    (hR : ∀ k, ∀ x ∈ validStates C D, ∀ y ∈ validStates C D, -R ≤ f k y - f k x) {p : ℝ}
    (hM : ∀ r ∈ I, ∀ x ∈ validStates C D, ∀ y ∈ validStates C D, ∃ d, rwPropose x d = y ∧ p ≤ rwDrawLaw C D r d)
    {y : Fin D → ℤ} (hyv : y ∈ validStates C D) (n : ℕ) :
    ∀ (k : ℕ) (r : ℝ), r ∈ I → ∀ (h : List (Fin D → ℤ)) (x : Fin D → ℤ), x ∈ validStates C D →
      1 - (1 - p * (Real.exp (-R) - tiny)) ^ n ≤ rwRun (indic fun path => y ∈ path) nx tiny C f n k r h x := by
  induction n with
  | zero =>
    intro k r hr h x _
    rw [pow_zero, sub_self]
    exact rwRun_ge_of hC hI hnx 0 k r hr h x fun l => indic_nonneg _ _
  | succ n ih =>
    intro k r hr h x hx
    obtain ⟨d₀, hd₀, hp₀⟩ := hM r hr x hx y hyv
    have hR0 : 0 ≤ R := by have := hR k x hx x hx; rw [sub_self] at this; linarith
    set δ := p * (Real.exp (-R) - tiny) with hδ
    have hp1 : p ≤ 1 := hp₀.trans (rwDrawLaw_le_one hC (hI r hr).1 (hI r hr).2 d₀)
    have hδ1 : δ ≤ 1 := by
      have := Real.exp_le_one_iff.2 (by linarith : -R ≤ 0)
      rw [hδ]; nlinarith
    have hv : ∀ d : RWDraw C D, ∀ z, z = x ∨ z = rwPropose x d → z ∈ validStates C D := by
      rintro d z (rfl | rfl)
      · exact hx
      · exact rwPropose_valid (by omega) x d
    have := rwRun_succ_acc (Φ := indic fun path => y ∈ path) (nx := nx) (tiny := tiny) (f := f) (n := n) (k := k)
      (h := h) (x := x) (v := 1 - (1 - δ) ^ n) (w := (1 - δ) ^ n) hC (hI r hr).1 (hI r hr).2
      (pow_nonneg (by linarith) n) (by linarith : 0 ≤ Real.exp (-R) - tiny)
      (fun d z hz => ih _ _ (hnx r hr _) _ _ (hv d z hz)) hp₀
      (acceptProb_floor hy hR0 (hR k x hx _ (hv d₀ _ (Or.inr rfl))))
      (by
        rw [hd₀]
        have := rwRun_hit_now (tiny := tiny) (f := f) (y := y) hC hI hnx n (k + 1) (hnx r hr
          (Real.exp (clipMax (f k y - f k x) 0))) (h ++ [x])
        linarith)
    calc 1 - (1 - δ) ^ (n + 1) = 1 - (1 - δ) ^ n + δ * (1 - δ) ^ n := by ring
      _ ≤ _ := this

theorem rwRun_hits_two (hC : 2 ≤ C) (hI : ∀ r ∈ I, 0 ≤ r ∧ r ≤ D) (hnx : ∀ r ∈ I, ∀ a, nx r a ∈ I) (hy : 0 ≤ tiny)
    {R : ℝ} (hα : tiny ≤ Real.exp (-R))
    (hR : ∀ k, ∀ x ∈ validStates C D, ∀ y ∈ validStates C D, -R ≤ f k y - f k x) {p : ℝ} (hp : 0 ≤ p)
    {M : (Fin D → ℤ) → (Fin D → ℤ) → Prop}
    (hM : ∀ r ∈ I, ∀ x ∈ validStates C D, ∀ y ∈ validStates C D, M x y →
      ∃ d, rwPropose x d = y ∧ p ≤ rwDrawLaw C D r d)
    (hvia : ∀ x ∈ validStates C D, ∀ y ∈ validStates C D, ∃ z ∈ validStates C D, M x z ∧ M z y)
    {y : Fin D → ℤ} (hyv : y ∈ validStates C D) (m : ℕ) :
    ∀ n, 2 * m ≤ n → ∀ (k : ℕ) (r : ℝ), r ∈ I → ∀ (h : List (Fin D → ℤ)) (x : Fin D → ℤ), x ∈ validStates C D →
      1 - (1 - (p * (Real.exp (-R) - tiny)) ^ 2) ^ m ≤
        rwRun (indic fun path => y ∈ path) nx tiny C f n k r h x := by
  induction m with
  | zero =>
    intro n _ k r hr h x _
    rw [pow_zero, sub_self]
    exact rwRun_ge_of hC hI hnx n k r hr h x fun l => indic_nonneg _ _
  | succ m ih =>
    intro n hn k r hr h x hx
    obtain ⟨n, rfl⟩ : ∃ n', n = n' + 2 := ⟨n - 2, by omega⟩
    obtain ⟨z, hz, hxz, hzy⟩ := hvia x hx y hyv
    have hR0 : 0 ≤ R := by have := hR k x hx x hx; rw [sub_self] at this; linarith
    obtain ⟨d₀, hd₀, hp₀⟩ := hM r hr x hx z hz hxz
    set δ := p * (Real.exp (-R) - tiny) with hδ
    have hα0 : 0 ≤ Real.exp (-R) - tiny := by linarith
    have hp1 : p ≤ 1 := hp₀.trans (rwDrawLaw_le_one hC (hI r hr).1 (hI r hr).2 d₀)
    have hδ0 : 0 ≤ δ := mul_nonneg hp hα0
    have hδ1 : δ ≤ 1 := by
      have := Real.exp_le_one_iff.2 (by linarith : -R ≤ 0)
      rw [hδ]; nlinarith
    set v := 1 - (1 - δ ^ 2) ^ m with hv'
    have hv1 : 0 ≤ 1 - v := by
      rw [hv']
      have := pow_nonneg (by nlinarith : 0 ≤ 1 - δ ^ 2) m
      linarith
    have hv : ∀ x ∈ validStates C D, ∀ d : RWDraw C D, ∀ z, z = x ∨ z = rwPropose x d → z ∈ validStates C D := by
      rintro x hx d z (rfl | rfl)
      · exact hx
      · exact rwPropose_valid (by omega) x d
    have second : ∀ (k : ℕ) (r : ℝ), r ∈ I → ∀ h : List (Fin D → ℤ),
        v + δ * (1 - v) ≤ rwRun (indic fun path => y ∈ path) nx tiny C f (n + 1) k r h z := by
      intro k r hr h
      obtain ⟨d₁, hd₁, hp₁⟩ := hM r hr z hz y hyv hzy
      refine rwRun_succ_acc hC (hI r hr).1 (hI r hr).2 hv1 hα0
        (fun d w hw => ih n (by omega) _ _ (hnx r hr _) _ _ (hv z hz d w hw)) hp₁
        (acceptProb_floor hy hR0 (hR k z hz _ (hv z hz d₁ _ (Or.inr rfl)))) ?_
      rw [hd₁]
      have := rwRun_hit_now (tiny := tiny) (f := f) (y := y) hC hI hnx n (k + 1) (hnx r hr
        (Real.exp (clipMax (f k y - f k z) 0))) (h ++ [z])
      linarith
    have := rwRun_succ_acc (Φ := indic fun path => y ∈ path) (nx := nx) (tiny := tiny) (f := f) (n := n + 1) (k := k)
      (h := h) (x := x) (v := v) (w := δ * (1 - v)) hC (hI r hr).1 (hI r hr).2 (mul_nonneg hδ0 hv1) hα0
      (fun d z hz => ih (n + 1) (by omega) _ _ (hnx r hr _) _ _ (hv x hx d z hz)) hp₀
      (acceptProb_floor hy hR0 (hR k x hx _ (hv x hx d₀ _ (Or.inr rfl))))
      (by rw [hd₀]; exact second _ _ (hnx r hr _) _)
    calc 1 - (1 - δ ^ 2) ^ (m + 1) = v + δ * (δ * (1 - v)) := by rw [hv']; ring
      _ ≤ _ := this

end hits

end Discs
