import Verif.Lemmas.Trap
import Verif.Spec.DrawPath
import Verif.Model.RWBatch
import Verif.Props.GWG

/-!
# Lemmas on runs of a batch of adaptive random walks
-/

namespace Discs

open Finset Spec

/-! ### Bounds along a run -/

section bounds

variable {X St Ω : Type*} [Fintype Ω] {p : ℕ → St → X → Ω → ℝ} {step : ℕ → St → X → Ω → X × St} {Φ : List X → ℝ}

theorem drawExpect_succ_ge {n k : ℕ} {s : St} {h : List X} {x : X} {v : ℝ} (hp : IsProb (p k s x))
    (hv : ∀ ω, p k s x ω ≠ 0 →
      v ≤ drawExpect p step Φ n (k + 1) (step k s x ω).2 (h ++ [x]) (step k s x ω).1) :
    v ≤ drawExpect p step Φ (n + 1) k s h x := by
  rw [drawExpect]
  calc v = ∑ ω, p k s x ω * v := by rw [← Finset.sum_mul, hp.2, one_mul]
    _ ≤ _ := Finset.sum_le_sum fun ω _ => ?_
  by_cases h0 : p k s x ω = 0
  · rw [h0, zero_mul, zero_mul]
  · exact mul_le_mul_of_nonneg_left (hv ω h0) (hp.1 ω)

theorem drawExpect_succ_gain {n k : ℕ} {s : St} {h : List X} {x : X} {v w q : ℝ} (hw : 0 ≤ w)
    (hp : IsProb (p k s x))
    (hv : ∀ ω, v ≤ drawExpect p step Φ n (k + 1) (step k s x ω).2 (h ++ [x]) (step k s x ω).1)
    {ω₀ : Ω} (hq : q ≤ p k s x ω₀)
    (hd : v + w ≤ drawExpect p step Φ n (k + 1) (step k s x ω₀).2 (h ++ [x]) (step k s x ω₀).1) :
    v + q * w ≤ drawExpect p step Φ (n + 1) k s h x := by
  classical
  rw [drawExpect]
  calc v + q * w ≤ v + p k s x ω₀ * w := by nlinarith
    _ = ∑ ω, p k s x ω * (v + if ω = ω₀ then w else 0) := by
      simp only [mul_add, Finset.sum_add_distrib, mul_ite, mul_zero]
      rw [← Finset.sum_mul, hp.2, one_mul, Finset.sum_ite_eq', if_pos (mem_univ _)]
    _ ≤ _ := Finset.sum_le_sum fun ω _ => mul_le_mul_of_nonneg_left ?_ (hp.1 ω)
  split_ifs with e
  · subst e; exact hd
  · simpa using hv ω

/-- A bound on `Φ` is one on its expectation. -/
theorem drawExpect_ge_const {I : St → X → Prop} (hp : ∀ k s x, I s x → IsProb (p k s x))
    (hI : ∀ k s x ω, I s x → I (step k s x ω).2 (step k s x ω).1) {b : ℝ} (hb : ∀ l, b ≤ Φ l) (n : ℕ) :
    ∀ (k : ℕ) (s : St) (h : List X) (x : X), I s x → b ≤ drawExpect p step Φ n k s h x := by
  induction n with
  | zero => intro k s h x _; exact hb _
  | succ n ih =>
    intro k s h x hx
    exact drawExpect_succ_ge (hp k s x hx) fun ω _ => ih _ _ _ _ (hI k s x ω hx)

end bounds

/-! ### The batch -/

variable {B D : ℕ}

/-- Radius in range and valid samples. -/
def BatchOk (s : RWState) (x : Fin B → Fin D → ℤ) : Prop :=
  1 ≤ s.radius ∧ s.radius ≤ D ∧ ∀ b, x b ∈ validStates 2 D

/-- Each chain is at one of the two samples of its pair. -/
def InPair (x y : Fin B → Fin D → ℤ) : Prop := ∀ b, y b = x b ∨ y b = complement (x b)

theorem InPair.refl (x : Fin B → Fin D → ℤ) : InPair x x := fun _ => Or.inl rfl

theorem InPair.trans {x y z : Fin B → Fin D → ℤ} (h : InPair x y) (h' : InPair y z) : InPair x z := fun b => by
  rcases h b with e | e <;> rcases h' b with e' | e' <;> rw [e', e]
  · exact Or.inl rfl
  · exact Or.inr rfl
  · exact Or.inr rfl
  · rw [complement_complement]; exact Or.inl rfl

theorem InPair.valid {x y : Fin B → Fin D → ℤ} (h : InPair x y) (hx : ∀ b, x b ∈ validStates 2 D) (b : Fin B) :
    y b ∈ validStates 2 D := by
  rcases h b with e | e <;> rw [e]
  · exact hx b
  · exact complement_valid (hx b)

variable {t tiny : ℝ} {f : ℕ → (Fin D → ℤ) → ℝ} {u : ℕ → Fin B → ℝ}

theorem rwBatchMove_row (k : ℕ) (s : RWState) (x : Fin B → Fin D → ℤ) (d : Fin B → RWDraw 2 D) (b : Fin B) :
    (rwBatchMove t tiny f u k s x d).1 b = x b ∨ (rwBatchMove t tiny f u k s x d).1 b = rwPropose (x b) (d b) := by
  show (rwStep true t tiny (f k) 2 x d (u k) s).1 b = _ ∨ (rwStep true t tiny (f k) 2 x d (u k) s).1 b = _
  rw [rwStep_fst]
  by_cases hb : bernoulliLogp tiny (u k b) (f k (rwPropose (x b) (d b)) - f k (x b))
  · right; rw [mhStep_accept hb]
  · left; rw [mhStep_reject hb]

theorem rwBatchMove_radius (k : ℕ) (s : RWState) (x : Fin B → Fin D → ℤ) (d : Fin B → RWDraw 2 D) :
    (rwBatchMove t tiny f u k s x d).2.radius = rwNext D true t s.radius
      (meanB fun b => Real.exp (clipMax (f k (rwPropose (x b) (d b)) - f k (x b)) 0)) := by
  simp [rwBatchMove, rwStep, rwSelectAdaptive, rwSelect, rwNext]

theorem rwBatchMove_ok (hD : 0 < D) (k : ℕ) (s : RWState) (x : Fin B → Fin D → ℤ) (d : Fin B → RWDraw 2 D)
    (h : BatchOk s x) : BatchOk (rwBatchMove t tiny f u k s x d).2 (rwBatchMove t tiny f u k s x d).1 := by
  refine ⟨?_, ?_, fun b => ?_⟩
  · rw [rwBatchMove_radius]; exact (rwNext_mem hD t _ _).1
  · rw [rwBatchMove_radius]; exact (rwNext_mem hD t _ _).2
  · rcases rwBatchMove_row (t := t) (tiny := tiny) (f := f) (u := u) k s x d b with e | e <;> rw [e]
    · exact h.2.2 b
    · exact rwPropose_valid (by omega) _ _

theorem rwBatchLaws_isProb (k : ℕ) (s : RWState) (x : Fin B → Fin D → ℤ) (h : BatchOk s x) :
    IsProb (rwBatchLaws k s x) :=
  isProb_iid (isProb_rwDrawLaw (D := D) le_rfl (by linarith [h.1]) h.2.1)

/-- After a draw that changes all sites of every chain or none the chains are in their pairs and the radius has grown. -/
theorem rwBatchMove_uniform (hB : 0 < B) (hs : ∀ k, FlipSymmetric (f k)) (k : ℕ) (s : RWState)
    {x : Fin B → Fin D → ℤ} (hx : ∀ b, x b ∈ validStates 2 D) (c : Bool) :
    InPair x (rwBatchMove t tiny f u k s x fun _ => uniformDraw D c).1 ∧
      (rwBatchMove t tiny f u k s x fun _ => uniformDraw D c).2.radius = rwNext D true t s.radius 1 := by
  have hB' : (B : ℝ) ≠ 0 := by exact_mod_cast hB.ne'
  refine ⟨fun b => ?_, ?_⟩
  · rcases rwBatchMove_row (t := t) (tiny := tiny) (f := f) (u := u) k s x (fun _ => uniformDraw D c) b with e | e
    · exact Or.inl e
    · rw [rwPropose_uniform (hx b)] at e
      cases c
      · left; simpa using e
      · right; simpa using e
  · rw [rwBatchMove_radius]
    simp only [sym_diff hs (hx _), clipMax_zero', meanB]
    simp [div_self hB']

variable {Φ : List (Fin B → Fin D → ℤ) → ℝ}

/-- At radius `dim` every chain stays in its pair. -/
theorem rwBatch_trap (hB : 0 < B) (hD : 0 < D) (ht : t ≤ 1) (hs : ∀ k, FlipSymmetric (f k)) {v : ℝ} (n : ℕ) :
    ∀ (k : ℕ) (s : RWState) (h : List (Fin B → Fin D → ℤ)) (x : Fin B → Fin D → ℤ), s.radius = D →
      (∀ b, x b ∈ validStates 2 D) →
      (∀ l : List (Fin B → Fin D → ℤ), (∀ y ∈ l, InPair x y) → v ≤ Φ (h ++ l)) →
      v ≤ drawExpect rwBatchLaws (rwBatchMove t tiny f u) Φ n k s h x := by
  have hD' : (1 : ℝ) ≤ D := by exact_mod_cast hD
  induction n with
  | zero => intro k s h x _ _ hΦ; exact hΦ [x] (by simpa using InPair.refl x)
  | succ n ih =>
    intro k s h x hr hx hΦ
    refine drawExpect_succ_ge (rwBatchLaws_isProb k s x ⟨by rw [hr]; exact hD', hr.le, hx⟩) fun d hd => ?_
    obtain rfl : d = fun _ => uniformDraw D true := by
      funext b
      by_contra hc
      refine hd (Finset.prod_eq_zero (mem_univ b) ?_)
      rw [hr]; exact rwDrawLaw_full hD hc
    obtain ⟨hp, hr'⟩ := rwBatchMove_uniform (t := t) (tiny := tiny) (u := u) hB hs k s hx true
    rw [hr, rwNext_full hD ht] at hr'
    refine ih _ _ _ _ hr' (hp.valid hx) fun l hl => ?_
    rw [List.append_assoc]
    refine hΦ _ fun z hz => ?_
    rcases List.mem_append.1 hz with hz | hz
    · rw [List.mem_singleton.1 hz]; exact InPair.refl x
    · exact hp.trans (hl z hz)

theorem exists_uniform_batch (r : ℝ) :
    ∃ c, ((1 / 2 : ℝ) ^ D) ^ B ≤ ∏ _b : Fin B, rwDrawLaw 2 D r (uniformDraw D c) := by
  obtain ⟨c, hc⟩ := exists_uniformDraw (D := D) r
  refine ⟨c, ?_⟩
  rw [Finset.prod_const, card_univ, Fintype.card_fin]
  exact pow_le_pow_left₀ (by positivity) hc B

/-- With the probability that the next `N` draws of all chains change no site or all of them the batch gets into the
trap and never leaves its pairs. -/
theorem rwBatch_climb (hB : 0 < B) (hD : 0 < D) (ht : t ≤ 1) (hs : ∀ k, FlipSymmetric (f k)) {b v : ℝ} (hbv : b ≤ v)
    (hb : ∀ l, b ≤ Φ l) (N : ℕ) :
    ∀ (n k : ℕ) (s : RWState), 1 ≤ s.radius → s.radius ≤ D → (D : ℝ) ≤ s.radius + N * (1 - t) →
      ∀ (h : List (Fin B → Fin D → ℤ)) (x : Fin B → Fin D → ℤ), (∀ b, x b ∈ validStates 2 D) →
      (∀ l : List (Fin B → Fin D → ℤ), (∀ y ∈ l, InPair x y) → v ≤ Φ (h ++ l)) →
      b + (((1 / 2 : ℝ) ^ D) ^ B) ^ N * (v - b) ≤ drawExpect rwBatchLaws (rwBatchMove t tiny f u) Φ n k s h x := by
  induction N with
  | zero =>
    intro n k s _ h1 hN h x hx hΦ
    have hr : s.radius = D := le_antisymm h1 (by simpa using hN)
    have := rwBatch_trap (Φ := Φ) (tiny := tiny) (u := u) hB hD ht hs n k s h x hr hx hΦ
    simpa using this
  | succ N ih =>
    intro n k s h0 h1 hN h x hx hΦ
    have hq : (((1 / 2 : ℝ) ^ D) ^ B) ^ (N + 1) ≤ 1 :=
      pow_le_one₀ (by positivity) (pow_le_one₀ (by positivity) (pow_le_one₀ (by norm_num) (by norm_num)))
    cases n with
    | zero =>
      have h2 : v ≤ Φ (h ++ [x]) := hΦ [x] (by simpa using InPair.refl x)
      show _ ≤ Φ (h ++ [x])
      nlinarith
    | succ n =>
      obtain ⟨c, hc⟩ := exists_uniform_batch (B := B) (D := D) s.radius
      obtain ⟨hp, hr'⟩ := rwBatchMove_uniform (t := t) (tiny := tiny) (u := u) hB hs k s hx c
      have := drawExpect_succ_gain (p := rwBatchLaws) (step := rwBatchMove t tiny f u) (Φ := Φ) (n := n) (k := k)
        (s := s) (h := h) (x := x) (v := b) (w := (((1 / 2 : ℝ) ^ D) ^ B) ^ N * (v - b))
        (mul_nonneg (by positivity) (by linarith)) (rwBatchLaws_isProb k s x ⟨h0, h1, hx⟩)
        (fun d => drawExpect_ge_const (I := BatchOk) rwBatchLaws_isProb (rwBatchMove_ok hD) hb n _ _ _ _
          (rwBatchMove_ok hD k s x d ⟨h0, h1, hx⟩)) (ω₀ := fun _ => uniformDraw D c) hc ?_
      · calc _ = b + ((1 / 2 : ℝ) ^ D) ^ B * ((((1 / 2 : ℝ) ^ D) ^ B) ^ N * (v - b)) := by rw [pow_succ]; ring
          _ ≤ _ := this
      · refine ih n _ _ ?_ ?_ ?_ _ _ (hp.valid hx) fun l hl => ?_
        · rw [hr']; exact (rwNext_mem hD t _ 1).1
        · rw [hr']; exact (rwNext_mem hD t _ 1).2
        · rw [hr']; exact rwNext_climb hD h0 (by linarith) (by linarith) hN
        · rw [List.append_assoc]
          refine hΦ _ fun z hz => ?_
          rcases List.mem_append.1 hz with hz | hz
          · rw [List.mem_singleton.1 hz]; exact InPair.refl x
          · exact hp.trans (hl z hz)

theorem batchStuckFrom_append {i : ℕ} {h l : List (Fin B → Fin D → ℤ)} (hi : h.length ≤ i)
    {x : Fin B → Fin D → ℤ} (hl : ∀ y ∈ l, InPair x y) : BatchStuckFrom i (h ++ l) := fun b => by
  rw [List.map_append]
  refine stuckFrom_append (by simpa using hi) (x := x b) fun y hy => ?_
  obtain ⟨z, hz, rfl⟩ := List.mem_map.1 hy
  exact hl z hz b

/-- Every `N` steps the batch gets another chance to be trapped. -/
theorem rwBatch_stuck (hB : 0 < B) (hD : 0 < D) (ht : t ≤ 1) (hs : ∀ k, FlipSymmetric (f k)) {N : ℕ}
    (hN : (D : ℝ) ≤ 1 + N * (1 - t)) (i m : ℕ) :
    ∀ (n k : ℕ) (s : RWState), 1 ≤ s.radius → s.radius ≤ D → ∀ (h : List (Fin B → Fin D → ℤ))
      (x : Fin B → Fin D → ℤ), (∀ b, x b ∈ validStates 2 D) → h.length + m * N ≤ i → i ≤ h.length + n →
      1 - (1 - (((1 / 2 : ℝ) ^ D) ^ B) ^ N) ^ m ≤
        drawExpect rwBatchLaws (rwBatchMove t tiny f u) (indic (BatchStuckFrom i)) n k s h x := by
  induction m with
  | zero =>
    intro n k s h0 h1 h x hx _ _
    rw [pow_zero, sub_self]
    exact drawExpect_ge_const (I := BatchOk) rwBatchLaws_isProb (rwBatchMove_ok hD) (indic_nonneg _) n k s h x
      ⟨h0, h1, hx⟩
  | succ m ihm =>
    set q1 : ℝ := ((1 / 2 : ℝ) ^ D) ^ B with hq1
    have q10 : 0 ≤ q1 := by positivity
    have q11 : q1 ≤ 1 := pow_le_one₀ (by positivity) (pow_le_one₀ (by norm_num) (by norm_num))
    set q : ℝ := q1 ^ N with hq
    have q0 : 0 ≤ q := pow_nonneg q10 N
    have q1' : q ≤ 1 := pow_le_one₀ q10 q11
    set v : ℝ := 1 - (1 - q) ^ m with hv
    have hv1 : 0 ≤ 1 - v := by rw [hv]; have := pow_nonneg (by linarith : 0 ≤ 1 - q) m; linarith
    have block : ∀ (N' n k : ℕ) (s : RWState), 1 ≤ s.radius → s.radius ≤ D →
        (D : ℝ) ≤ s.radius + (N' : ℕ) * (1 - t) →
        ∀ (h : List (Fin B → Fin D → ℤ)) (x : Fin B → Fin D → ℤ), (∀ b, x b ∈ validStates 2 D) →
        h.length + N' + m * N ≤ i → i ≤ h.length + n →
        v + q1 ^ N' * (1 - v) ≤
          drawExpect rwBatchLaws (rwBatchMove t tiny f u) (indic (BatchStuckFrom i)) n k s h x := by
      intro N'
      induction N' with
      | zero =>
        intro n k s _ h1 hr h x hx hi _
        have hr' : s.radius = D := le_antisymm h1 (by simpa using hr)
        have := rwBatch_trap (Φ := indic (BatchStuckFrom i)) (tiny := tiny) (u := u) (v := 1) hB hD ht hs n k s h x
          hr' hx fun l hl => (indic_of (batchStuckFrom_append (by omega) hl)).ge
        simpa using this
      | succ N' ih =>
        intro n k s h0 h1 hr h x hx hi hn
        obtain ⟨n, rfl⟩ : ∃ n', n = n' + 1 := ⟨n - 1, by omega⟩
        obtain ⟨c, hc⟩ := exists_uniform_batch (B := B) (D := D) s.radius
        obtain ⟨hp, hr'⟩ := rwBatchMove_uniform (t := t) (tiny := tiny) (u := u) hB hs k s hx c
        have hlen : (h ++ [x]).length = h.length + 1 := by simp
        have := drawExpect_succ_gain (p := rwBatchLaws) (step := rwBatchMove t tiny f u)
          (Φ := indic (BatchStuckFrom i)) (n := n) (k := k)
          (s := s) (h := h) (x := x) (v := v) (w := q1 ^ N' * (1 - v)) (mul_nonneg (pow_nonneg q10 _) hv1)
          (rwBatchLaws_isProb k s x ⟨h0, h1, hx⟩)
          (fun d => by
            have ok := rwBatchMove_ok (t := t) (tiny := tiny) (f := f) (u := u) hD k s x d ⟨h0, h1, hx⟩
            exact ihm n _ _ ok.1 ok.2.1 _ _ ok.2.2 (by omega) (by omega))
          (ω₀ := fun _ => uniformDraw D c) hc ?_
        · calc _ = v + q1 * (q1 ^ N' * (1 - v)) := by rw [pow_succ]; ring
            _ ≤ _ := this
        · refine ih n _ _ ?_ ?_ ?_ _ _ (hp.valid hx) (by omega) (by omega)
          · rw [hr']; exact (rwNext_mem hD t _ 1).1
          · rw [hr']; exact (rwNext_mem hD t _ 1).2
          · rw [hr']; exact rwNext_climb hD h0 (by linarith) (by linarith) hr
    intro n k s h0 h1 h x hx hi hn
    have := block N n k s h0 h1 (by linarith) h x hx (by rw [add_mul, one_mul] at hi; omega) hn
    calc 1 - (1 - q) ^ (m + 1) = v + q * (1 - v) := by rw [hv]; ring
      _ ≤ _ := this

end Discs
