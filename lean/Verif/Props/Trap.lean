import Verif.Lemmas.Trap
import Verif.Model.Anneal
import Verif.Model.BuildModel
import Verif.Props.Comb
import Verif.Props.Convergence
import Verif.Props.Lattice
import Verif.Spec.Anneal

/-!
# Property C114: the adaptive random walk goes on exploring

The radius of the adaptive random walk may grow up to the number of sites (`randomwalk.py:63-74`), and each site is
changed with probability `radius / dim`.  At the upper end every site changes in every step: the proposal is the
complement of the sample.  For an energy that does not change when all sites change (Max-Cut, the Ising model
without a field) that proposal is always accepted, the radius stays where it is, and the run only ever sees one
sample and its complement.
-/

namespace Discs

open Finset Spec

variable {D : ℕ}

/-! ## Energies that are symmetric under changing all sites -/

theorem maxcut_flipSymmetric {N m : ℕ} (A : EdgeArrays N m) (temp : ℕ → ℝ) (k : ℕ) :
    FlipSymmetric (annealEnergy (fun x : Fin (N + 1) → ℤ => maxcutObjective A fun j => (x j : ℝ)) noPenalty temp k) := by
  intro x
  unfold annealEnergy combForward
  congr 2
  refine Finset.sum_congr rfl fun i _ => ?_
  simp only [complement]
  push_cast
  ring

theorem truncZero_neg (z : ℝ) : truncZero (-z) = -truncZero z := by
  unfold truncZero
  rcases lt_trichotomy z 0 with h | h | h
  · rw [if_pos (by linarith), if_neg (by linarith), Int.floor_neg]; push_cast; ring
  · subst h; simp
  · rw [if_neg (by linarith), if_pos h.le, Int.ceil_neg]; push_cast; ring

/-- The Ising model without a field, as the samplers evaluate it. -/
theorem ising_flipSymmetric {H W : ℕ} (wh wv : Grid H W) :
    FlipSymmetric fun x : Fin (H * W) → ℤ => isingForwardInt wh wv (fun _ _ => 0) (unflat x) := by
  intro x
  unfold isingForwardInt isingForwardCast
  have hs : (fun (r : Fin H) (c : Fin W) => 2 * ((unflat (complement x) r c : ℤ) : ℝ) - 1) =
      fun r c => -(2 * ((unflat x r c : ℤ) : ℝ) - 1) := by
    funext r c
    simp only [unflat, complement]
    push_cast
    ring
  simp only [hs]
  set s : Grid H W := fun r c => 2 * ((unflat x r c : ℤ) : ℝ) - 1
  have hd : ∀ w m m' : Grid H W, (∀ r c, m' r c = -m r c) →
      (∀ r c, recvDown truncZero (fun r c => -s r c) w m' r c = -recvDown truncZero s w m r c) ∧
      (∀ r c, recvUp truncZero (fun r c => -s r c) w m' r c = -recvUp truncZero s w m r c) ∧
      (∀ r c, recvRight truncZero (fun r c => -s r c) w m' r c = -recvRight truncZero s w m r c) ∧
      ∀ r c, recvLeft truncZero (fun r c => -s r c) w m' r c = -recvLeft truncZero s w m r c := by
    intro w m m' hm
    have e : ∀ a b : ℝ, ∀ r c, truncZero (m' r c + -a * b) = -truncZero (m r c + a * b) := by
      intro a b r c
      rw [← truncZero_neg, hm]
      congr 1; ring
    refine ⟨?_, ?_, ?_, ?_⟩ <;> intro r c
    · unfold recvDown; split_ifs
      · exact e _ _ _ _
      · exact hm r c
    · unfold recvUp; split_ifs
      · exact e _ _ _ _
      · exact hm r c
    · unfold recvRight; split_ifs
      · exact e _ _ _ _
      · exact hm r c
    · unfold recvLeft; split_ifs
      · exact e _ _ _ _
      · exact hm r c
  have h1 := (hd wv (fun _ _ => 0) (fun _ _ => 0) (by simp)).1
  have h2 := (hd wv _ _ h1).2.1
  have h3 := (hd wh _ _ h2).2.2.1
  have h4 := (hd wh _ _ h3).2.2.2
  congr 1
  refine Finset.sum_congr rfl fun r _ => Finset.sum_congr rfl fun c _ => ?_
  have h5 := h4 r c
  simp only [s] at h5 ⊢
  have h6 : (2 : ℝ) * ((unflat (complement x) r c : ℤ) : ℝ) - 1 = -(2 * ((unflat x r c : ℤ) : ℝ) - 1) :=
    congrFun (congrFun hs r) c
  rw [h5, h6]
  ring

/-! ## One chain -/

/-- **C114 is false of the code.** Symmetric energies that may change from step to step, any start, any number of
steps: with a probability that does not depend on the length of the run, *every* sample of the run is the start or its
complement. -/
theorem rw_trapped (hD : 0 < D) {t tiny : ℝ} (ht : t ≤ 1) (hy : 0 ≤ tiny) {f : ℕ → (Fin D → ℤ) → ℝ}
    (hs : ∀ k, FlipSymmetric (f k)) {N : ℕ} (hN : (D : ℝ) ≤ 1 + N * (1 - t)) (s : RWState) (h0 : 1 ≤ s.radius)
    (h1 : s.radius ≤ D) {x : Fin D → ℤ} (hx : x ∈ validStates 2 D) (L : ℕ) :
    (1 / 2 : ℝ) ^ (D * N) ≤ pathExpect (fun _ => rwLaws 2) (fun k => rwMove true t tiny (f k) 2)
      (indic fun path => ∀ y ∈ path, y = x ∨ y = complement x) L 0 s [] x := by
  rw [rwRun_eq _ _ _ hy]
  have := rwRun_climb (Φ := indic fun path => ∀ y ∈ path, y = x ∨ y = complement x) (tiny := tiny) hD ht hs
    (zero_le_one) (indic_nonneg _) N L 0 s.radius h0 h1 (by linarith) [] x hx fun l hl => (indic_of hl).ge
  simpa using this

/-- **C114 is false of the code.** The run gets stuck almost surely: after `m * N` steps the probability that it
only ever sees one sample and its complement from then on is at least `1 - (1 - 2 ^ (-D N)) ^ m`, which tends to `1`
with `m`, however long the run is. -/
theorem rw_stuck (hD : 0 < D) {t tiny : ℝ} (ht : t ≤ 1) (hy : 0 ≤ tiny) {f : ℕ → (Fin D → ℤ) → ℝ}
    (hs : ∀ k, FlipSymmetric (f k)) {N : ℕ} (hN : (D : ℝ) ≤ 1 + N * (1 - t)) (s : RWState) (h0 : 1 ≤ s.radius)
    (h1 : s.radius ≤ D) {x : Fin D → ℤ} (hx : x ∈ validStates 2 D) (m L : ℕ) (hL : m * N ≤ L) :
    1 - (1 - (1 / 2 : ℝ) ^ (D * N)) ^ m ≤ pathExpect (fun _ => rwLaws 2) (fun k => rwMove true t tiny (f k) 2)
      (indic (StuckFrom (m * N))) L 0 s [] x := by
  rw [rwRun_eq _ _ _ hy]
  exact rwRun_stuck hD ht hs hN (m * N) m L 0 s.radius h0 h1 [] x hx (by simp) (by simpa using hL)

/-- **C114 is false of the code.** If in the first `N` steps every move is accepted with a ratio that exceeds the target
rate by `g` (a hot or flat model), the run is stuck with certainty after `N ≥ (dim - 1) / g` steps, also when the
model is made colder afterwards. -/
theorem rw_hot_stuck (hD : 0 < D) {t tiny g : ℝ} (ht : t ≤ 1) (hy : 0 ≤ tiny) (hg : 0 ≤ g)
    {f : ℕ → (Fin D → ℤ) → ℝ} (hs : ∀ k, FlipSymmetric (f k)) {N : ℕ} (hN : (D : ℝ) ≤ 1 + N * g)
    (hf : ∀ k < N, ∀ x ∈ validStates 2 D, ∀ y ∈ validStates 2 D, g + t ≤ min 1 (Real.exp (f k y - f k x)))
    (s : RWState) (h0 : 1 ≤ s.radius) (h1 : s.radius ≤ D) {x : Fin D → ℤ} (hx : x ∈ validStates 2 D) (L : ℕ)
    (hL : N ≤ L) :
    1 ≤ pathExpect (fun _ => rwLaws 2) (fun k => rwMove true t tiny (f k) 2) (indic (StuckFrom N)) L 0 s [] x := by
  rw [rwRun_eq _ _ _ hy]
  refine rwRun_hot hD ht hg hs N L 0 s.radius h0 h1 (by linarith) (fun k _ hk x hx y hy => ?_) [] x hx (by simp)
    (by simpa using hL)
  have h := hf k (by omega) x hx y hy
  rcases le_total (f k y - f k x) 0 with e | e
  · rw [clipMax, min_eq_left e]; exact h.trans (min_le_right _ _)
  · rw [clipMax, min_eq_right e, Real.exp_zero]; exact h.trans (min_le_left _ _)

/-! ## Max-Cut and the Ising model -/

/-- **C114 is false of the code, search for a maximum cut.** From a start that is not a maximum cut, whatever the
cooling schedule and however long the run, the probability that *no* sample of the annealed run is a maximum cut is at
least `2 ^ (-D N)`. -/
theorem rw_maxcut_misses {n m : ℕ} (A : EdgeArrays n m) (temp : ℕ → ℝ) {t tiny : ℝ} (ht : t ≤ 1) (hy : 0 ≤ tiny)
    {N : ℕ} (hN : ((n + 1 : ℕ) : ℝ) ≤ 1 + N * (1 - t)) (s : RWState) (h0 : 1 ≤ s.radius)
    (h1 : s.radius ≤ ((n + 1 : ℕ) : ℝ)) {x : Fin (n + 1) → ℤ} (hx : x ∈ validStates 2 (n + 1))
    (hno : x ∉ optima (validStates 2 (n + 1)) fun x => maxcutObjective A fun j => (x j : ℝ)) (L : ℕ) :
    (1 / 2 : ℝ) ^ ((n + 1) * N) ≤ pathExpect (fun _ => rwLaws 2)
      (fun k => rwMove true t tiny
        (annealEnergy (fun x => maxcutObjective A fun j => (x j : ℝ)) noPenalty temp k) 2)
      (indic fun path => ∀ y ∈ path, y ∉ optima (validStates 2 (n + 1)) fun x => maxcutObjective A fun j => (x j : ℝ))
      L 0 s [] x := by
  classical
  rw [rwRun_eq _ _ _ hy]
  have hsym : ∀ x : Fin (n + 1) → ℤ,
      maxcutObjective A (fun j => ((complement x j : ℤ) : ℝ)) = maxcutObjective A fun j => (x j : ℝ) := by
    intro x
    have := maxcut_flipSymmetric A (fun _ => 1) 0 x
    simpa [annealEnergy, combForward, noPenalty] using this
  have hno' : complement x ∉ optima (validStates 2 (n + 1)) fun x => maxcutObjective A fun j => (x j : ℝ) := by
    intro hc
    refine hno ?_
    rw [optima, mem_filter] at hc ⊢
    refine ⟨hx, fun y hy => ?_⟩
    have := hc.2 y hy
    simp only [hsym] at this
    exact this
  have := rwRun_climb (D := n + 1) (Φ := indic fun path => ∀ y ∈ path,
      y ∉ optima (validStates 2 (n + 1)) fun x => maxcutObjective A fun j => (x j : ℝ)) (tiny := tiny) (b := 0) (v := 1)
    (Nat.succ_pos n) ht (maxcut_flipSymmetric A temp) (zero_le_one) (indic_nonneg _) N L 0 s.radius h0 h1 (by linarith)
    [] x hx fun l hl => (indic_of fun y hy => by
      rcases hl y hy with rfl | rfl
      · exact hno
      · exact hno').ge
  simpa using this

/-- **C114 is false of the code, Ising model.** Without a field and with couplings below one in absolute value, the
energy the random walk evaluates on its integer samples is constant (C34); the adaptive random walk is then stuck with
certainty after `(dim - 1) / (1 - target)` steps: it samples one configuration and its complement forever. -/
theorem rw_ising_stuck {H W : ℕ} (hD : 0 < H * W) (wh wv : Grid H W) (hh : ∀ r c, |wh r c| < 1)
    (hv : ∀ r c, |wv r c| < 1) {t tiny : ℝ} (ht : t ≤ 1) (hy : 0 ≤ tiny) {N : ℕ}
    (hN : ((H * W : ℕ) : ℝ) ≤ 1 + N * (1 - t)) (s : RWState) (h0 : 1 ≤ s.radius) (h1 : s.radius ≤ ((H * W : ℕ) : ℝ))
    {x : Fin (H * W) → ℤ} (hx : x ∈ validStates 2 (H * W)) (L : ℕ) (hL : N ≤ L) :
    1 ≤ pathExpect (fun _ => rwLaws 2)
      (fun _ => rwMove true t tiny (fun x => isingForwardInt wh wv (fun _ _ => 0) (unflat x)) 2)
      (indic (StuckFrom N)) L 0 s [] x := by
  have hz : ∀ x ∈ validStates 2 (H * W), isingForwardInt wh wv (fun _ _ => 0) (unflat x) = 0 := by
    intro x hx
    rw [ising_int_loses_couplings wh wv _ hh hv (unflat x) fun r c => mem_validStates_two.1 hx _]
    simp
  refine rw_hot_stuck (D := H * W) hD ht hy (g := 1 - t) (by linarith) (fun _ => ising_flipSymmetric wh wv) hN
    (fun k _ x hx y hy => ?_) s h0 h1 hx L hL
  simp [hz x hx, hz y hy]

/-! ## A batch of chains, every run -/

/-- The samples and the state after `k` steps of a batch of adaptive random walks; `d k`, `u k` are the draws of step
`k`. -/
noncomputable def rwBatchRun {B : ℕ} (t tiny : ℝ) (f : ℕ → (Fin D → ℤ) → ℝ) (d : ℕ → Fin B → RWDraw 2 D)
    (u : ℕ → Fin B → ℝ) (x : Fin B → Fin D → ℤ) (s : RWState) : ℕ → (Fin B → Fin D → ℤ) × RWState
  | 0 => (x, s)
  | k + 1 =>
    let c := rwBatchRun t tiny f d u x s k
    let r := rwStep true t tiny (f k) 2 c.1 (d k) (u k) c.2
    (r.1, r.2.1)

/-- **C114 is false of the code, any batch size.** Once the radius is `dim`, every run of a batch with draws that have
positive probability at that radius and any acceptance noise keeps the radius, and each chain only ever sees its sample
and the complement of it. -/
theorem rw_batch_trapped {B : ℕ} (hB : 0 < B) (hD : 0 < D) {t tiny : ℝ} (ht : t ≤ 1) {f : ℕ → (Fin D → ℤ) → ℝ}
    (hs : ∀ k, FlipSymmetric (f k)) (d : ℕ → Fin B → RWDraw 2 D) (u : ℕ → Fin B → ℝ)
    (hd : ∀ k b, rwDrawLaw 2 D D (d k b) ≠ 0) {x : Fin B → Fin D → ℤ} (hx : ∀ b, x b ∈ validStates 2 D)
    {s : RWState} (h0 : s.radius = D) (k : ℕ) :
    (rwBatchRun t tiny f d u x s k).2.radius = D ∧
      ∀ b, (rwBatchRun t tiny f d u x s k).1 b = x b ∨ (rwBatchRun t tiny f d u x s k).1 b = complement (x b) := by
  have hdr : ∀ k b, d k b = uniformDraw D true := fun k b => by
    by_contra hc
    exact hd k b (rwDrawLaw_full hD hc)
  have hB' : (B : ℝ) ≠ 0 := by exact_mod_cast hB.ne'
  induction k with
  | zero => exact ⟨h0, fun b => Or.inl rfl⟩
  | succ k ih =>
    rw [rwBatchRun]
    obtain ⟨hr, hp⟩ := ih
    generalize rwBatchRun t tiny f d u x s k = c at hr hp
    obtain ⟨X, σ⟩ := c
    simp only at hr hp ⊢
    have hval : ∀ b, X b ∈ validStates 2 D := fun b => by
      rcases hp b with e | e <;> rw [e]
      · exact hx b
      · exact complement_valid (hx b)
    constructor
    · have hl : ∀ b, f k (rwPropose (X b) (d k b)) - f k (X b) = 0 := fun b => by
        rw [hdr k b]; exact sym_diff hs (hval b) true k
      have := rwNext_full (t := t) hD ht
      simp only [rwNext, if_true] at this
      simp [rwStep, rwSelectAdaptive, rwSelect, meanB, hl, clipMax, hr, div_self hB', this]
    · intro b
      have hc : rwPropose (X b) (d k b) = complement (X b) := by
        rw [hdr k b, rwPropose_uniform (hval b), if_pos rfl]
      have : (rwStep true t tiny (f k) 2 X (d k) (u k) σ).1 b = X b ∨
          (rwStep true t tiny (f k) 2 X (d k) (u k) σ).1 b = complement (X b) := by
        rw [rwStep_fst]
        by_cases hb : bernoulliLogp tiny (u k b) (f k (rwPropose (X b) (d k b)) - f k (X b))
        · right; rw [mhStep_accept hb, hc]
        · left; rw [mhStep_reject hb]
      rcases this with e | e <;> rcases hp b with e' | e' <;> rw [e, e']
      · exact Or.inl rfl
      · exact Or.inr rfl
      · exact Or.inr rfl
      · rw [complement_complement]; exact Or.inl rfl

/-- **C114 is false of the code, any batch size.** On a model that is hot or flat for the first `N ≥ (dim - 1) / g` steps
every run of a batch, whatever it draws, has radius `dim` after `N` steps. -/
theorem rw_batch_hot {B : ℕ} (hB : 0 < B) (hD : 0 < D) {t tiny g : ℝ} (hg : 0 ≤ g) {f : ℕ → (Fin D → ℤ) → ℝ} {N : ℕ}
    (hN : (D : ℝ) ≤ 1 + N * g)
    (hf : ∀ k < N, ∀ x ∈ validStates 2 D, ∀ y ∈ validStates 2 D, g + t ≤ min 1 (Real.exp (f k y - f k x)))
    (d : ℕ → Fin B → RWDraw 2 D) (u : ℕ → Fin B → ℝ) {x : Fin B → Fin D → ℤ} (hx : ∀ b, x b ∈ validStates 2 D)
    {s : RWState} (h0 : 1 ≤ s.radius) (h1 : s.radius ≤ D) :
    (rwBatchRun t tiny f d u x s N).2.radius = D := by
  have hB' : (0 : ℝ) < B := by exact_mod_cast hB
  have key : ∀ k ≤ N, (∀ b, (rwBatchRun t tiny f d u x s k).1 b ∈ validStates 2 D) ∧
      1 ≤ (rwBatchRun t tiny f d u x s k).2.radius ∧ (rwBatchRun t tiny f d u x s k).2.radius ≤ D ∧
      (D : ℝ) ≤ (rwBatchRun t tiny f d u x s k).2.radius + (N - k : ℕ) * g := by
    intro k
    induction k with
    | zero => intro _; exact ⟨hx, h0, h1, by simpa [rwBatchRun] using hN.trans (by linarith)⟩
    | succ k ih =>
      intro hk
      obtain ⟨hv, hr0, hr1, hr⟩ := ih (by omega)
      rw [rwBatchRun]
      generalize rwBatchRun t tiny f d u x s k = c at hv hr0 hr1 hr
      obtain ⟨X, σ⟩ := c
      simp only at hv hr0 hr1 hr ⊢
      set a := meanB fun b => Real.exp (clipMax (f k (rwPropose (X b) (d k b)) - f k (X b)) 0) with ha
      have hrad : (rwStep true t tiny (f k) 2 X (d k) (u k) σ).2.1.radius = rwNext D true t σ.radius a := by
        simp [rwStep, rwSelectAdaptive, rwSelect, rwNext, ha]
      have hge : g + t ≤ a := by
        rw [ha]
        unfold meanB
        rw [le_div_iff₀ hB']
        calc (g + t) * B = ∑ _b : Fin B, (g + t) := by simp; ring
          _ ≤ _ := Finset.sum_le_sum fun b _ => ?_
        have h := hf k (by omega) _ (hv b) _ (rwPropose_valid (C := 2) (by omega) (X b) (d k b))
        rcases le_total (f k (rwPropose (X b) (d k b)) - f k (X b)) 0 with e | e
        · rw [clipMax, min_eq_left e]; exact h.trans (min_le_right _ _)
        · rw [clipMax, min_eq_right e, Real.exp_zero]; exact h.trans (min_le_left _ _)
      refine ⟨fun b => ?_, ?_⟩
      · rw [rwStep_fst]
        by_cases hb : bernoulliLogp tiny (u k b) (f k (rwPropose (X b) (d k b)) - f k (X b))
        · rw [mhStep_accept hb]; exact rwPropose_valid (by omega) _ _
        · rw [mhStep_reject hb]; exact hv b
      · rw [hrad]
        refine ⟨(rwNext_mem hD t _ _).1, (rwNext_mem hD t _ _).2, rwNext_climb hD hr0 hg hge ?_⟩
        rwa [show N - (k + 1) + 1 = N - k by omega]
  have := key N le_rfl
  rw [Nat.sub_self, Nat.cast_zero, zero_mul, add_zero] at this
  exact le_antisymm this.2.2.1 this.2.2.2

/-! ## What remains true -/

/-- **C114 (partial): a radius that is not adapted.** For any number of categories, a fixed radius strictly between `0`
and `dim`, and energies that may change from step to step but differ by at most `R`, every sample is hit: the
probability that `y` is among the samples of `n` steps is at least `1 - (1 - δ) ^ n`.  Missing: the adaptive walk on two
categories, where the statement is false. -/
theorem rw_fixed_explores_partial {C : ℕ} (hC : 2 ≤ C) (t : ℝ) {tiny a R : ℝ} (hy : 0 ≤ tiny) (ha : 0 < a)
    (hα : tiny ≤ Real.exp (-R)) {f : ℕ → (Fin D → ℤ) → ℝ}
    (hR : ∀ k, ∀ x ∈ validStates C D, ∀ y ∈ validStates C D, -R ≤ f k y - f k x) (s : RWState)
    (hlo : a * (C - 1 : ℕ) * D ≤ s.radius) (hhi : s.radius ≤ (1 - a * (C - 1 : ℕ)) * D)
    {x y : Fin D → ℤ} (hx : x ∈ validStates C D) (hyv : y ∈ validStates C D) (n : ℕ) :
    1 - (1 - a ^ D * (Real.exp (-R) - tiny)) ^ n ≤
      pathExpect (fun _ => rwLaws C) (fun k => rwMove false t tiny (f k) C) (indic fun path => y ∈ path) n 0 s [] x := by
  rw [rwRun_eq _ _ _ hy]
  have h0 : 0 ≤ s.radius := le_trans (by positivity) hlo
  have h1 : s.radius ≤ D := hhi.trans (by
    have : 0 ≤ a * (C - 1 : ℕ) * (D : ℝ) := by positivity
    linarith)
  refine rwRun_hits hC (I := {s.radius}) (nx := rwNext D false t) (by rintro r rfl; exact ⟨h0, h1⟩)
    (by rintro r rfl c; simp [rwNext]) hy hα hR (p := a ^ D) ?_ hyv n 0 s.radius rfl [] x hx
  rintro r rfl x hx y hy
  obtain ⟨d, hd⟩ := rw_reach hC hx hy
  exact ⟨d, hd, rw_floor hC ha hlo hhi d⟩

/-- **C114 (partial): three or more categories.** The adaptive walk hits every sample then, whatever its radius
does: within two steps every site can change twice.  Missing: two categories, where the statement is false. -/
theorem rw_categ_explores_partial {C : ℕ} (hC : 3 ≤ C) (hD : 0 < D) (t : ℝ) {tiny R : ℝ} (hy : 0 ≤ tiny)
    (hα : tiny ≤ Real.exp (-R)) {f : ℕ → (Fin D → ℤ) → ℝ}
    (hR : ∀ k, ∀ x ∈ validStates C D, ∀ y ∈ validStates C D, -R ≤ f k y - f k x) (s : RWState)
    (h0 : 1 ≤ s.radius) (h1 : s.radius ≤ D) {x y : Fin D → ℤ} (hx : x ∈ validStates C D)
    (hyv : y ∈ validStates C D) (n : ℕ) :
    1 - (1 - ((1 / (D * (C - 1 : ℕ)) : ℝ) ^ D * (Real.exp (-R) - tiny)) ^ 2) ^ n ≤
      pathExpect (fun _ => rwLaws C) (fun k => rwMove true t tiny (f k) C) (indic fun path => y ∈ path) (2 * n) 0 s [] x := by
  rw [rwRun_eq _ _ _ hy]
  have hD' : (1 : ℝ) ≤ D := by exact_mod_cast hD
  refine rwRun_hits_two (by omega) (I := Set.Icc 1 D) (nx := rwNext D true t)
    (fun r hr => ⟨by linarith [hr.1], hr.2⟩) (fun r _ c => rwNext_mem hD t r c) hy hα hR
    (p := (1 / (D * (C - 1 : ℕ)) : ℝ) ^ D) (by positivity) (M := fun x y => ∀ j, x j ≠ y j) ?_ ?_ hyv n (2 * n) le_rfl 0
    s.radius ⟨h0, h1⟩ [] x hx
  · intro r hr x hx y hy hxy
    obtain ⟨d, hd⟩ := rw_reach (by omega) hx hy
    refine ⟨d, hd, pow_le_prod (by positivity) fun j => ?_⟩
    have hj : d.1 j = true := by
      by_contra hc
      have e := congrFun hd j
      simp only [rwPropose, hc, if_false, zero_mul, zero_add, emod_of_valid hx j] at e
      exact hxy j e
    rw [hj, if_pos rfl, one_div, mul_inv, ← one_div (D : ℝ), ← one_div ((C - 1 : ℕ) : ℝ)]
    exact mul_le_mul_of_nonneg_right (by gcongr; exact hr.1) (by positivity)
  · intro x hx y hy
    have hz : ∀ j, ∃ z : ℤ, 0 ≤ z ∧ z < C ∧ x j ≠ z ∧ z ≠ y j := by
      intro j
      have hC' : (3 : ℤ) ≤ C := by exact_mod_cast hC
      by_cases h0 : x j ≠ 0 ∧ y j ≠ 0
      · exact ⟨0, le_rfl, by omega, h0.1, fun e => h0.2 e.symm⟩
      by_cases h1 : x j ≠ 1 ∧ y j ≠ 1
      · exact ⟨1, by omega, by omega, h1.1, fun e => h1.2 e.symm⟩
      · exact ⟨2, by omega, by omega, by omega, by omega⟩
    choose z hz0 hz1 hz2 hz3 using hz
    exact ⟨z, mem_validStates.2 fun j => ⟨hz0 j, hz1 j⟩, hz2, hz3⟩

/-! ## Examples -/

/-- A path graph on three vertices: no vertex on the other side is not a maximum cut. -/
def pathGraph : EdgeArrays 2 2 where
  edgeFrom i := if i = 0 then 0 else 1
  edgeTo i := if i = 0 then 1 else 2
  edgeMask _ := 1
  edgeWeight _ := 1
  numEdges := 2

example (temp : ℕ → ℝ) (L : ℕ) :
    (1 / 2 : ℝ) ^ (3 * 3) ≤ pathExpect (fun _ => rwLaws 2)
      (fun k => rwMove true (1 / 4) mhTiny
        (annealEnergy (fun x => maxcutObjective pathGraph fun j => (x j : ℝ)) noPenalty temp k) 2)
      (indic fun path => ∀ y ∈ path, y ∉ optima (validStates 2 3) fun x => maxcutObjective pathGraph fun j => (x j : ℝ))
      L 0 ⟨0, 0, 1, none⟩ [] (fun _ => 0) := by
  refine rw_maxcut_misses pathGraph temp (by norm_num) (by norm_num [mhTiny]) (by norm_num) _ le_rfl (by norm_num)
    (mem_validStates_two.2 fun _ => Or.inl rfl) (fun hc => ?_) L
  classical
  rw [optima, mem_filter] at hc
  have := hc.2 (fun j => if j = 1 then 1 else 0) (mem_validStates_two.2 fun j => by split_ifs <;> simp)
  simp [maxcutObjective, pathGraph, Fin.sum_univ_two] at this
  norm_num at this

/-- The default couplings of the Ising model are below one. -/
example (L : ℕ) (hL : 4 ≤ L) : 1 ≤ pathExpect (fun _ => rwLaws 2)
      (fun _ => rwMove true (1 / 4) mhTiny (fun x : Fin (2 * 2) → ℤ =>
        isingForwardInt (isingInitW (1 / 2)) (isingInitW (1 / 2)) (fun _ _ => 0) (unflat x)) 2)
      (indic (StuckFrom 4)) L 0 ⟨0, 0, 1, none⟩ [] (fun _ => 0) :=
  rw_ising_stuck (by norm_num) _ _ (by intro r c; norm_num [isingInitW, abs_lt]) (by intro r c; norm_num [isingInitW, abs_lt])
    (by norm_num) (by norm_num [mhTiny]) (by norm_num) _ le_rfl (by norm_num)
    (mem_validStates_two.2 fun _ => Or.inl rfl) L hL

/-- Three chains at radius `dim = 3`. -/
example (temp : ℕ → ℝ) (k : ℕ) :
    (rwBatchRun (B := 3) (1 / 4) mhTiny
      (annealEnergy (fun x => maxcutObjective pathGraph fun j => (x j : ℝ)) noPenalty temp)
      (fun _ _ => uniformDraw 3 true) (fun _ _ => 0) (fun _ _ => 0) ⟨0, 0, 3, none⟩ k).2.radius = 3 := by
  have := (rw_batch_trapped (B := 3) (D := 3) (t := 1 / 4) (tiny := mhTiny) (by norm_num) (by norm_num) (by norm_num)
    (maxcut_flipSymmetric pathGraph temp) (fun _ _ => uniformDraw 3 true) (fun _ _ => 0)
    (fun _ _ => by rw [rwDrawLaw_uniform]; norm_num) (x := fun _ _ => 0)
    (fun _ => mem_validStates_two.2 fun _ => Or.inl rfl) (s := ⟨0, 0, 3, none⟩) (by norm_num) k).1
  simpa using this

/-- A flat model. -/
example (d : ℕ → Fin 3 → RWDraw 2 3) (u : ℕ → Fin 3 → ℝ) :
    (rwBatchRun (1 / 4) mhTiny (fun _ _ => 0) d u (fun _ _ => 0) ⟨0, 0, 1, none⟩ 3).2.radius = 3 := by
  have := rw_batch_hot (B := 3) (D := 3) (t := 1 / 4) (tiny := mhTiny) (g := 3 / 4) (N := 3) (f := fun _ _ => 0)
    (by norm_num) (by norm_num) (by norm_num) (by norm_num) (fun k _ x _ y _ => by norm_num) d u (x := fun _ _ => 0)
    (fun _ => mem_validStates_two.2 fun _ => Or.inl rfl) (s := ⟨0, 0, 1, none⟩) le_rfl (by norm_num)
  simpa using this

/-- The fixed radius that the adaptive walk starts from. -/
example (f : ℕ → (Fin 3 → ℤ) → ℝ) (hf : ∀ k x, |f k x| ≤ 1) (n : ℕ) :
    1 - (1 - (1 / 3 : ℝ) ^ 3 * (Real.exp (-2) - 0)) ^ n ≤
      pathExpect (fun _ => rwLaws 2) (fun k => rwMove false (1 / 4) 0 (f k) 2) (indic fun path => (fun _ => 1) ∈ path) n 0
        ⟨0, 0, 1, none⟩ [] (fun _ => 0) :=
  rw_fixed_explores_partial le_rfl _ le_rfl (by norm_num) (Real.exp_pos _).le
    (fun k x _ y _ => by have := abs_le.1 (hf k x); have := abs_le.1 (hf k y); linarith) _ (by norm_num) (by norm_num)
    (mem_validStates_two.2 fun _ => Or.inl rfl) (mem_validStates_two.2 fun _ => Or.inr rfl) n

example (f : ℕ → (Fin 3 → ℤ) → ℝ) (hf : ∀ k x, |f k x| ≤ 1) (n : ℕ) :
    1 - (1 - ((1 / ((3 : ℕ) * (3 - 1 : ℕ)) : ℝ) ^ 3 * (Real.exp (-2) - 0)) ^ 2) ^ n ≤
      pathExpect (fun _ => rwLaws 3) (fun k => rwMove true (1 / 4) 0 (f k) 3) (indic fun path => (fun _ => 1) ∈ path)
        (2 * n) 0 ⟨0, 0, 1, none⟩ [] (fun _ => 0) :=
  rw_categ_explores_partial le_rfl (by norm_num) _ le_rfl (Real.exp_pos _).le
    (fun k x _ y _ => by have := abs_le.1 (hf k x); have := abs_le.1 (hf k y); linarith) _ le_rfl (by norm_num)
    (mem_validStates.2 fun _ => by norm_num) (mem_validStates.2 fun _ => by norm_num) n

end Discs
