import Mathlib.Analysis.Asymptotics.SpecificAsymptotics
import Verif.Lemmas.PathAuxHot
import Verif.Props.AnnealGibbs
import Verif.Props.Moves

/-!
# Property C119: the adaptive path-auxiliary sampler goes on exploring

The radius of the adaptive path-auxiliary sampler grows while proposals are accepted more often than the target rate, up
to the number of sites (`path_auxiliary.py:54-63`).  At the upper end every step proposes to change all sites at once
(`path_auxiliary.py:93-95`).  On a hot model everything is accepted, so every run ends up there and from then on only
sees one sample and its complement.
-/

namespace Discs

open Finset Spec Filter

variable {D B : ℕ}

theorem pafsAdaptiveStep_ind {P : (Fin D → ℤ) → Prop} (t tiny : ℝ) (calls : ℕ) (h : ℝ → ℝ) (f : (Fin D → ℤ) → ℝ)
    (lr : (Fin D → ℤ) → Fin D → ℝ) (x : Fin B → Fin D → ℤ) (σ : Fin B → Equiv.Perm (Fin D)) (u : Fin B → ℝ) (s : LBState)
    (b : Fin B) (h0 : P (x b)) (h1 : P (maskFlip (x b) (orderMask (numFlips D s.radius) (σ b)))) :
    P ((pafsAdaptiveStep t tiny calls h f lr none x σ u s).1 b) := by
  simp only [pafsAdaptiveStep, lbSelectBinary]
  exact mhStep_ind (y := fun b => maskFlip (x b) (orderMask (numFlips D s.radius) (σ b))) h0 h1

section Hot

variable {t tiny g : ℝ} {calls : ℕ} {name : String} {h : ℝ → ℝ} {f : ℕ → (Fin D → ℤ) → ℝ}
  {lr : ℕ → (Fin D → ℤ) → Fin D → ℝ} {R G : ℝ} (hB : 0 < B) (hD : 0 < D)
  (hh : ∀ v, applyWeightLog name v = .ok (h v)) (hG0 : 0 ≤ G)
  (hR : ∀ k, ∀ x ∈ validStates 2 D, ∀ y ∈ validStates 2 D, f k x - f k y ≤ R)
  (hG : ∀ k, ∀ x ∈ validStates 2 D, ∀ j, |lr k x j| ≤ G) (hg0 : 0 ≤ g) (hg : g + t ≤ Real.exp (-(R + 4 * G * D)))
  (σ : ℕ → Fin B → Equiv.Perm (Fin D)) (u : ℕ → Fin B → ℝ) {x : Fin B → Fin D → ℤ}
  (hx : ∀ b, x b ∈ validStates 2 D) {s : LBState}

include hx in
theorem pafsBatchRun_valid (n : ℕ) :
    ∀ b, (pafsBatchRun t tiny calls h f lr σ u x s n).1 b ∈ validStates 2 D := by
  induction n with
  | zero => exact hx
  | succ n ih =>
    intro b
    rw [pafsBatchRun]
    generalize pafsBatchRun t tiny calls h f lr σ u x s n = c at ih
    exact pafsAdaptiveStep_ind (P := fun z => z ∈ validStates 2 D) t tiny calls _ _ _ _ _ _ _ b (ih b) (maskFlip_valid (ih b) _)

include hB hD hh hG0 hR hG hg hx in
/-- One step on a hot model raises the radius by `g`, up to the number of sites. -/
theorem pafs_hot_climb (n : ℕ) :
    min (D : ℝ) ((pafsBatchRun t tiny calls h f lr σ u x s n).2.radius + g) ≤
      (pafsBatchRun t tiny calls h f lr σ u x s (n + 1)).2.radius ∧
    (pafsBatchRun t tiny calls h f lr σ u x s (n + 1)).2.radius ≤ D := by
  have hv := pafsBatchRun_valid (t := t) (tiny := tiny) (calls := calls) (s := s) (lr := lr) (f := f) (h := h) σ u hx n
  have hB' : (0 : ℝ) < B := by exact_mod_cast hB
  rw [pafsBatchRun]
  generalize pafsBatchRun t tiny calls h f lr σ u x s n = c at hv
  obtain ⟨X, r⟩ := c
  simp only at hv ⊢
  have hD1 : (1 : ℝ) ≤ D := by exact_mod_cast hD
  set la : Fin B → ℝ := fun b => f n (maskFlip (X b) (orderMask (numFlips D r.radius) (σ n b))) +
      pafsLlBack (pafsLogProb h (lr n) none (maskFlip (X b) (orderMask (numFlips D r.radius) (σ n b))))
        (numFlips D r.radius) (σ n b) - f n (X b) -
      ∑ j, pafsLlSel (pafsLogProb h (lr n) none (X b)) (numFlips D r.radius) (σ n b) j with hla
  have e : (pafsAdaptiveStep t tiny calls h (f n) (lr n) none X (σ n) (u n) r).2.1.radius =
      adaptRadius t D la r.radius := rfl
  rw [e]
  have hmean : g + t ≤ meanB fun b => Real.exp (clipMax (la b) 0) := by
    unfold meanB
    rw [le_div_iff₀ hB']
    calc (g + t) * B = ∑ _b : Fin B, (g + t) := by simp; ring
      _ ≤ _ := Finset.sum_le_sum fun b _ => hg.trans (Real.exp_le_exp.2 ?_)
    unfold clipMax
    refine le_min (pafs_hot_logAcc hD hh (hR n _ (hv b) _ (maskFlip_valid (hv b) _)) hG0 (hG n _ (hv b))
      (hG n _ (maskFlip_valid (hv b) _)) (numFlips_le _) (σ n b)) ?_
    have := hR n _ (hv b) _ (hv b)
    have : 0 ≤ 4 * G * D := by positivity
    linarith
  unfold adaptRadius clip
  constructor
  · rcases le_total (D : ℝ) (max (r.radius + (meanB fun b => Real.exp (clipMax (la b) 0)) - t) 1) with h1 | h1
    · rw [min_eq_right h1]; exact min_le_left _ _
    · rw [min_eq_left h1]
      exact (min_le_right _ _).trans (le_max_of_le_left (by linarith))
  · exact min_le_right _ _

include hB hD hh hG0 hR hG hg0 hg hx in
/-- **C119 is false of the code.** On a hot model the radius of every run, whatever it draws, is the number of sites from
step `N ≥ (dim - radius) / g` on. -/
theorem pafs_hot_full {N : ℕ} (hN : (D : ℝ) ≤ s.radius + N * g) (h1 : s.radius ≤ D) (n : ℕ) (hn : N ≤ n) :
    (pafsBatchRun t tiny calls h f lr σ u x s n).2.radius = D := by
  have key : ∀ n : ℕ, min (D : ℝ) (s.radius + n * g) ≤ (pafsBatchRun t tiny calls h f lr σ u x s n).2.radius ∧
      (pafsBatchRun t tiny calls h f lr σ u x s n).2.radius ≤ D := by
    intro n
    induction n with
    | zero => exact ⟨by simp [pafsBatchRun], h1⟩
    | succ n ih =>
      have := pafs_hot_climb (t := t) (tiny := tiny) (calls := calls) (s := s) hB hD hh hG0 hR hG hg σ u hx n
      refine ⟨le_trans ?_ this.1, this.2⟩
      refine le_min (min_le_left _ _) ?_
      rcases le_total (D : ℝ) (s.radius + n * g) with h2 | h2
      · rw [min_eq_left h2] at ih
        exact (min_le_left _ _).trans (by linarith [ih.1])
      · rw [min_eq_right h2] at ih
        refine (min_le_right _ _).trans ?_
        push_cast
        linarith [ih.1]
  refine le_antisymm (key n).2 (le_trans (le_min le_rfl (hN.trans ?_)) (key n).1)
  have : (N : ℝ) ≤ n := by exact_mod_cast hn
  nlinarith

include hB hD hh hG0 hR hG hg0 hg hx in
/-- **C119 is false of the code.** On a hot model each chain of every run, whatever it draws, only ever sees one sample and
its complement from step `N ≥ (dim - radius) / g` on. -/
theorem pafs_hot_trapped {N : ℕ} (hN : (D : ℝ) ≤ s.radius + N * g) (h1 : s.radius ≤ D) (n : ℕ) (hn : N ≤ n) (b : Fin B) :
    (pafsBatchRun t tiny calls h f lr σ u x s n).1 b = (pafsBatchRun t tiny calls h f lr σ u x s N).1 b ∨
      (pafsBatchRun t tiny calls h f lr σ u x s n).1 b =
        complement ((pafsBatchRun t tiny calls h f lr σ u x s N).1 b) := by
  induction n, hn using Nat.le_induction with
  | base => exact Or.inl rfl
  | succ n hn ih =>
    have hfull := pafs_hot_full (t := t) (tiny := tiny) (calls := calls) hB hD hh hG0 hR hG hg0 hg σ u hx hN h1 n hn
    have step : (pafsBatchRun t tiny calls h f lr σ u x s (n + 1)).1 b = (pafsBatchRun t tiny calls h f lr σ u x s n).1 b ∨
        (pafsBatchRun t tiny calls h f lr σ u x s (n + 1)).1 b =
          complement ((pafsBatchRun t tiny calls h f lr σ u x s n).1 b) := by
      rw [pafsBatchRun]
      generalize pafsBatchRun t tiny calls h f lr σ u x s n = c at hfull
      refine pafsAdaptiveStep_ind (P := fun z => z = c.1 b ∨ z = complement (c.1 b)) t tiny calls _ _ _ _ _ _ _ b (Or.inl rfl)
        (Or.inr ?_)
      rw [hfull, numFlips_full, maskFlip_full]
    rcases step with e | e <;> rcases ih with e' | e' <;> rw [e, e']
    · exact Or.inl rfl
    · exact Or.inr rfl
    · exact Or.inr rfl
    · rw [complement_complement]; exact Or.inl rfl

include hB hD hh hG0 hR hG hg0 hg hx in
/-- **C119 is false of the code.** A run of any length visits at most `N + 2` samples per chain, so with fewer than
`2 ^ dim / (N + 2)` chains some sample is never visited by any of them. -/
theorem pafs_hot_misses {N : ℕ} (hN : (D : ℝ) ≤ s.radius + N * g) (h1 : s.radius ≤ D) (hfew : B * (N + 2) < 2 ^ D) :
    ∃ y ∈ validStates 2 D, ∀ n b, (pafsBatchRun t tiny calls h f lr σ u x s n).1 b ≠ y := by
  classical
  set run : ℕ → Fin B → Fin D → ℤ := fun n => (pafsBatchRun t tiny calls h f lr σ u x s n).1 with hrun
  let V : Finset (Fin D → ℤ) := univ.biUnion fun b : Fin B =>
    insert (complement (run N b)) ((range (N + 1)).image fun n => run n b)
  have hV : V.card ≤ B * (N + 2) := by
    refine card_biUnion_le.trans ?_
    calc ∑ b : Fin B, (insert (complement (run N b)) ((range (N + 1)).image fun n => run n b)).card
        ≤ ∑ _b : Fin B, (N + 2) := Finset.sum_le_sum fun b _ => (card_insert_le _ _).trans
          (Nat.succ_le_succ (card_image_le.trans (by simp)))
      _ = B * (N + 2) := by simp
  have hcard : (validStates 2 D).card = 2 ^ D := by
    have := card_validStates 2 D
    exact_mod_cast this
  obtain ⟨y, hy, hyV⟩ := exists_mem_notMem_of_card_lt_card (s := V) (t := validStates 2 D) (by omega)
  refine ⟨y, hy, fun n b e => hyV ?_⟩
  change run n b = y at e
  rw [← e]
  refine mem_biUnion.2 ⟨b, mem_univ b, ?_⟩
  rcases Nat.lt_or_ge n (N + 1) with hn | hn
  · exact mem_insert_of_mem (mem_image.2 ⟨n, mem_range.2 hn, rfl⟩)
  · rcases pafs_hot_trapped (t := t) (tiny := tiny) (calls := calls) hB hD hh hG0 hR hG hg0 hg σ u hx hN h1 n
      (by omega) b with e' | e'
    · exact mem_insert_of_mem (mem_image.2 ⟨N, by simp, e'.symm⟩)
    · exact mem_insert.2 (Or.inl e')

include hB hD hh hG0 hR hG hg0 hg hx in
/-- **C119 is false of the code.** The share of time at which two sites agree tends to zero or one, on every model that is
hot enough and whatever is drawn. -/
theorem pafs_hot_average {N : ℕ} (hN : (D : ℝ) ≤ s.radius + N * g) (h1 : s.radius ≤ D) (b : Fin B) (i j : Fin D) :
    ∃ c : ℝ, (c = 0 ∨ c = 1) ∧ Tendsto (fun L : ℕ => (∑ n ∈ range L,
      if (pafsBatchRun t tiny calls h f lr σ u x s n).1 b i = (pafsBatchRun t tiny calls h f lr σ u x s n).1 b j
        then (1 : ℝ) else 0) / L) atTop (nhds c) := by
  set a : ℕ → ℝ := fun n =>
    if (pafsBatchRun t tiny calls h f lr σ u x s n).1 b i = (pafsBatchRun t tiny calls h f lr σ u x s n).1 b j
      then (1 : ℝ) else 0 with ha
  have hconst : ∀ n ≥ N, a n = a N := by
    intro n hn
    simp only [ha]
    congr 1
    rw [eq_iff_iff]
    rcases pafs_hot_trapped (t := t) (tiny := tiny) (calls := calls) hB hD hh hG0 hR hG hg0 hg σ u hx hN h1 n hn b
      with e | e <;> rw [e]
    unfold complement
    constructor <;> intro h <;> omega
  refine ⟨a N, ?_, ?_⟩
  · simp only [ha]; split_ifs <;> simp
  · have : Tendsto a atTop (nhds (a N)) := tendsto_const_nhds.congr' (by
      filter_upwards [eventually_ge_atTop N] with n hn
      exact (hconst n hn).symm)
    simpa [div_eq_inv_mul] using this.cesaro

end Hot

/-! ## Flat models and hot schedules -/

/-- **C119 is false of the code.** On a flat model (a Bernoulli model with probabilities one half, an Ising or Potts model
without coupling and field) every run is caught after `N ≥ (dim - num_flips) / (1 - target)` steps. -/
theorem pafs_flat_stuck (hB : 0 < B) (hD : 0 < D) {t tiny : ℝ} (ht : t < 1) {calls : ℕ} {name : String} {h : ℝ → ℝ}
    (hh : ∀ v, applyWeightLog name v = .ok (h v)) (c : ℝ) {numFlips N : ℕ} (hN : (D : ℝ) ≤ numFlips + N * (1 - t))
    (hn : numFlips ≤ D) (σ : ℕ → Fin B → Equiv.Perm (Fin D)) (u : ℕ → Fin B → ℝ) {x : Fin B → Fin D → ℤ}
    (hx : ∀ b, x b ∈ validStates 2 D) (n : ℕ) (hNn : N ≤ n) (b : Fin B) :
    let run := fun n => (pafsBatchRun t tiny calls h (fun _ _ => c) (fun _ _ _ => 0) σ u x (pafsInit numFlips) n).1 b
    run n = run N ∨ run n = complement (run N) :=
  pafs_hot_trapped (R := 0) (G := 0) (g := 1 - t) hB hD hh le_rfl (by simp) (by simp) (by linarith) (by simp) σ u hx
    (by simpa [pafsInit] using hN) (by simpa [pafsInit] using hn) n hNn b

/-- The local log-ratios of an annealed model: `(1 - 2 x) * grad` (`path_auxiliary.py:72-77`). -/
noncomputable def Spec.annealRatio (g : (Fin D → ℤ) → Fin D → ℝ) (temp : ℕ → ℝ) (k : ℕ) (x : Fin D → ℤ) (j : Fin D) : ℝ :=
  (1 - 2 * (x j : ℝ)) * annealGrad g temp k x j

/-- **C119 is false of the code.** A combinatorial run whose temperatures stay above a bound visits at most `N + 2` samples
per chain, however long it is. -/
theorem pafs_hot_schedule (hB : 0 < B) (hD : 0 < D) {t tiny δ : ℝ} {calls : ℕ} {name : String} {h : ℝ → ℝ}
    (hh : ∀ v, applyWeightLog name v = .ok (h v)) (obj pen : (Fin D → ℤ) → ℝ) {g : (Fin D → ℤ) → Fin D → ℝ} {R G T₀ : ℝ}
    (hG0 : 0 ≤ G) (hR : ∀ x ∈ validStates 2 D, ∀ y ∈ validStates 2 D, (obj x - pen x) - (obj y - pen y) ≤ R)
    (hG : ∀ x ∈ validStates 2 D, ∀ j, |g x j| ≤ G) (hT₀ : 0 < T₀) {temp : ℕ → ℝ} (htemp : ∀ k, T₀ ≤ temp (k + 1))
    (hδ0 : 0 ≤ δ) (hδ : δ + t ≤ Real.exp (-((R + 4 * G * D) / T₀))) {numFlips N : ℕ}
    (hN : (D : ℝ) ≤ numFlips + N * δ) (hn : numFlips ≤ D) (σ : ℕ → Fin B → Equiv.Perm (Fin D)) (u : ℕ → Fin B → ℝ)
    {x : Fin B → Fin D → ℤ} (hx : ∀ b, x b ∈ validStates 2 D) (hfew : B * (N + 2) < 2 ^ D) :
    ∃ y ∈ validStates 2 D, ∀ n b, (pafsBatchRun t tiny calls h (annealEnergy obj pen temp) (annealRatio g temp) σ u x
      (pafsInit numFlips) n).1 b ≠ y := by
  have hz0 : (fun _ => 0 : Fin D → ℤ) ∈ validStates 2 D := mem_validStates_two.2 fun _ => Or.inl rfl
  have hR0 : 0 ≤ R := by have := hR _ hz0 _ hz0; linarith
  refine pafs_hot_misses (R := R / T₀) (G := G / T₀) (g := δ) hB hD hh (by positivity) ?_ ?_ hδ0 ?_ σ u hx
    (by simpa [pafsInit] using hN) (by simpa [pafsInit] using hn) hfew
  · intro k x hx y hy
    have hT : 0 < temp (k + 1) := hT₀.trans_le (htemp k)
    rw [annealEnergy_div]
    dsimp only
    rw [← sub_div]
    exact (div_le_div_of_nonneg_right (hR x hx y hy) hT.le).trans (div_le_div_of_nonneg_left hR0 hT₀ (htemp k))
  · intro k x hx j
    have hT : 0 < temp (k + 1) := hT₀.trans_le (htemp k)
    unfold annealRatio
    have e : |(1 - 2 * (x j : ℝ))| = 1 := by
      rcases mem_validStates_two.1 hx j with e | e <;> rw [e] <;> norm_num
    rw [abs_mul, e, one_mul, annealGrad, one_mul, abs_div, abs_of_pos hT]
    exact (div_le_div_of_nonneg_right (hG x hx j) hT.le).trans (div_le_div_of_nonneg_left hG0 hT₀ (htemp k))
  · rwa [show R / T₀ + 4 * (G / T₀) * D = (R + 4 * G * D) / T₀ by ring]

/-! ## Examples -/

/-- Ten sites without any coupling and the configured target rate: from step 22 on each of 40 chains sees one sample and
its complement, and some sample is never visited. -/
example (σ : ℕ → Fin 40 → Equiv.Perm (Fin 10)) (u : ℕ → Fin 40 → ℝ) :
    ∃ y ∈ validStates 2 10, ∀ n b, (pafsBatchRun (B := 40) 0.574 1e-24 4 (· / 2) (fun _ _ => 0) (fun _ _ _ => 0) σ u
      (fun _ _ => 0) (pafsInit 1) n).1 b ≠ y :=
  pafs_hot_misses (B := 40) (D := 10) (name := "SQRT") (R := 0) (G := 0) (g := 0.426) (N := 22) (by norm_num) (by norm_num)
    (fun v => rfl) le_rfl (by simp) (by simp) (by norm_num) (by norm_num) σ u
    (fun _ => mem_validStates_two.2 fun _ => Or.inl rfl) (by norm_num [pafsInit]) (by norm_num [pafsInit]) (by norm_num)

end Discs
