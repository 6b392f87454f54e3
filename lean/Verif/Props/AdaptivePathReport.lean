import Verif.Props.AdaptiveReport
import Verif.Props.GridNoise
import Verif.Props.TrapPAFS

/-!
# Property C116, adaptive path auxiliary: what a long run at high temperatures reports

At high temperatures the radius grows to the number of sites (C119).  A run that has not met the optimum or its complement
by then never reports the optimum, and this happens with a probability that does not depend on the length of the run.
-/

namespace Discs

open Finset Spec

variable {D B : ℕ}

/-- One step of the adaptive path auxiliary sampler on a batch: next samples and next state
(`path_auxiliary.py:14-33`). -/
noncomputable def pafsBatchMove (target tiny : ℝ) (calls : ℕ) (h : ℝ → ℝ) (f : (Fin D → ℤ) → ℝ)
    (lr : (Fin D → ℤ) → Fin D → ℝ) (s : LBState) (x : Fin B → Fin D → ℤ) (σ : Fin B → Equiv.Perm (Fin D))
    (u : Fin B → ℝ) : (Fin B → Fin D → ℤ) × LBState :=
  let r := pafsAdaptiveStep target tiny calls h f lr none x σ u s
  (r.1, r.2.1)

/-- The chains accept or reject their own proposals. -/
theorem pafsBatch_accRej (target : ℝ) {tiny : ℝ} (calls : ℕ) (h : ℝ → ℝ) (f : ℕ → (Fin D → ℤ) → ℝ)
    (lr : ℕ → (Fin D → ℤ) → Fin D → ℝ) :
    BatchAccRej (B := B) (Ω := fun _ : LBState => Equiv.Perm (Fin D)) (validStates 2 D) tiny
      (fun k => pafsLaws h (lr k)) (fun k => pafsBatchMove target tiny calls h (f k) (lr k))
      (fun _ s x σ => maskFlip x (orderMask (numFlips D s.radius) σ))
      (fun k s x σ => f k (maskFlip x (orderMask (numFlips D s.radius) σ)) +
        pafsLlBack (pafsLogProb h (lr k) none (maskFlip x (orderMask (numFlips D s.radius) σ)))
          (numFlips D s.radius) σ - f k x - ∑ j, pafsLlSel (pafsLogProb h (lr k) none x) (numFlips D s.radius) σ j)
      (fun k s x σ => (pafsBatchMove target tiny calls h (f k) (lr k) s x σ fun _ => 0).2) where
  prob _ _ _ _ := isProb_pafsOrderLaw _
  closed _ _ _ hx _ := maskFlip_valid hx _
  state _ _ _ _ _ _ := rfl
  rows k s x _ σ u := by
    classical
    funext b
    simp only [pafsBatchMove, pafsAdaptiveStep, lbSelectBinary, mhStep, sel, decide_eq_true_eq]
    rfl

/-- Some order leads away from a sample and its complement, if not all sites are flipped. -/
theorem exists_order_away (hD : 3 ≤ D) {k : ℕ} (hk : 0 < k) (hkD : k < D) {x : Fin D → ℤ} (hx : x ∈ validStates 2 D)
    (y : Fin D → ℤ) : ∃ σ : Equiv.Perm (Fin D),
      maskFlip x (orderMask k σ) ≠ y ∧ maskFlip x (orderMask k σ) ≠ complement y := by
  have key : ∀ σ : Equiv.Perm (Fin D), ∀ i j : Fin D,
      ¬ (maskFlip x (orderMask k σ) i = maskFlip x (orderMask k σ) j ↔ y i = y j) →
      maskFlip x (orderMask k σ) ≠ y ∧ maskFlip x (orderMask k σ) ≠ complement y := by
    intro σ i j h
    refine ⟨fun e => h (by rw [e]), fun e => h ?_⟩
    rw [e]
    unfold complement
    constructor <;> intro h <;> omega
  let a : Fin D := ⟨0, by omega⟩
  let c : Fin D := ⟨1, by omega⟩
  let l : Fin D := ⟨D - 1, by omega⟩
  have hal : a ≠ l := by simp only [a, l, ne_eq, Fin.mk.injEq]; omega
  have hac : a ≠ c := by simp [a, c]
  have hlc : l ≠ c := by simp only [c, l, ne_eq, Fin.mk.injEq]; omega
  have xa := mem_validStates_two.1 hx a
  have xl := mem_validStates_two.1 hx l
  have fl : ∀ (σ : Equiv.Perm (Fin D)) (i : Fin D),
      maskFlip x (orderMask k σ) i = if (σ.symm i : ℕ) < k then 1 - x i else x i := by
    intro σ i
    unfold maskFlip orderMask
    by_cases h : (σ.symm i : ℕ) < k <;> simp [h]
  by_cases hag : (x a = x l ↔ y a = y l)
  · -- flip exactly one of the two sites
    refine ⟨1, key 1 a l ?_⟩
    rw [fl, fl]
    have e1 : (((1 : Equiv.Perm (Fin D)).symm a : Fin D) : ℕ) < k := hk
    have e2 : ¬ (((1 : Equiv.Perm (Fin D)).symm l : Fin D) : ℕ) < k := by show ¬ D - 1 < k; omega
    rw [if_pos e1, if_neg e2, ← hag]
    omega
  · by_cases hk1 : k = 1
    · -- flip another site
      refine ⟨Equiv.swap a c, key _ a l ?_⟩
      rw [fl, fl, Equiv.symm_swap, Equiv.swap_apply_left, Equiv.swap_apply_of_ne_of_ne hal.symm hlc]
      have e1 : ¬ ((c : Fin D) : ℕ) < k := by show ¬ 1 < k; omega
      have e2 : ¬ ((l : Fin D) : ℕ) < k := by show ¬ D - 1 < k; omega
      rw [if_neg e1, if_neg e2]
      exact hag
    · -- flip both
      refine ⟨Equiv.swap c l, key _ a l ?_⟩
      rw [fl, fl, Equiv.symm_swap, Equiv.swap_apply_right, Equiv.swap_apply_of_ne_of_ne hac hal]
      have e1 : ((c : Fin D) : ℕ) < k := by show 1 < k; omega
      have e2 : ((a : Fin D) : ℕ) < k := hk
      rw [if_pos e1, if_pos e2]
      intro h
      apply hag
      rw [← h]
      constructor <;> intro h <;> omega

section Hot

variable {t tiny δ : ℝ} {calls : ℕ} {name : String} {h : ℝ → ℝ} {f : ℕ → (Fin D → ℤ) → ℝ}
  {lr : ℕ → (Fin D → ℤ) → Fin D → ℝ} {R G : ℝ}

/-- Neither the sample nor its complement. -/
def Spec.Away (y x : Fin D → ℤ) : Prop := x ∈ validStates 2 D ∧ x ≠ y ∧ x ≠ complement y

theorem away_complement {x y : Fin D → ℤ} (h : Away y x) : Away y (complement x) := by
  refine ⟨?_, fun e => h.2.2 ?_, fun e => h.2.1 ?_⟩
  · rw [mem_validStates_two]
    intro j
    have := mem_validStates_two.1 h.1 j
    unfold complement
    omega
  · rw [← e, complement_complement]
  · rw [← complement_complement x, e, complement_complement]

/-- On a hot model the run stays away from `y` and its complement with a probability that does not depend on its length. -/
theorem pafs_hot_away (hB : 0 < B) (hD : 3 ≤ D) (ht : 0 ≤ tiny) (hh : ∀ v, applyWeightLog name v = .ok (h v))
    (hG0 : 0 ≤ G) (hR : ∀ k, ∀ x ∈ validStates 2 D, ∀ y ∈ validStates 2 D, f k x - f k y ≤ R)
    (hG : ∀ k, ∀ x ∈ validStates 2 D, ∀ j, |lr k x j| ≤ G) (hδ0 : 0 ≤ δ) (hδ : δ + t ≤ Real.exp (-(R + 4 * G * D)))
    (y : Fin D → ℤ) {Φ : List (Fin B → Fin D → ℤ) → ℝ} (hΦ0 : ∀ v, 0 ≤ Φ v)
    (hΦ : ∀ v, (∀ X ∈ v, ∀ b, Away y (X b)) → 1 ≤ Φ v) (n : ℕ) :
    ∀ (m k : ℕ) (s : LBState) (v : List (Fin B → Fin D → ℤ)) (x : Fin B → Fin D → ℤ), s.radius ≤ D →
      (D : ℝ) ≤ s.radius + m * δ → (∀ X ∈ v, ∀ b, Away y (X b)) → (∀ b, Away y (x b)) →
      (((Real.exp (-(2 * G)) / D) ^ D) ^ B) ^ m ≤
        batchExpect (fun k => pafsLaws h (lr k)) (fun k => pafsBatchMove t tiny calls h (f k) (lr k)) Φ n k s v x := by
  have hD0 : 0 < D := by omega
  have hD1 : (1 : ℝ) ≤ D := by exact_mod_cast hD0
  set q : ℝ := ((Real.exp (-(2 * G)) / D) ^ D) ^ B with hq
  have hb0 : 0 ≤ Real.exp (-(2 * G)) / D := by positivity
  have hb1 : Real.exp (-(2 * G)) / D ≤ 1 := by
    rw [div_le_one (by linarith)]
    exact (Real.exp_le_one_iff.2 (by linarith)).trans hD1
  have hq0 : 0 ≤ q := pow_nonneg (pow_nonneg hb0 _) _
  have hq1 : q ≤ 1 := pow_le_one₀ (pow_nonneg hb0 _) (pow_le_one₀ hb0 hb1)
  have H := pafsBatch_accRej (B := B) t (tiny := tiny) calls h f lr
  have hnn : ∀ (n k : ℕ) (s : LBState) (v : List (Fin B → Fin D → ℤ)) (x : Fin B → Fin D → ℤ),
      (∀ b, x b ∈ validStates 2 D) → 0 ≤
        batchExpect (fun k => pafsLaws h (lr k)) (fun k => pafsBatchMove t tiny calls h (f k) (lr k)) Φ n k s v x := by
    intro n
    induction n with
    | zero => intro k s v x _; exact hΦ0 v
    | succ n ih =>
      intro k s v x hx
      rw [H.succ ht n k s v hx]
      exact Finset.sum_nonneg fun σ _ => Finset.sum_nonneg fun a _ =>
        mul_nonneg (H.weight_nonneg k s hx σ a) (ih _ _ _ _ (sel_mem (fun b => H.closed k s _ (hx b) _) hx a))
  induction n with
  | zero => intro m k s v x _ _ hv _; exact (pow_le_one₀ hq0 hq1).trans (hΦ v hv)
  | succ n ih =>
    intro m k s v x hs hm hv hx
    have hx' : ∀ b, x b ∈ validStates 2 D := fun b => (hx b).1
    rw [H.succ ht n k s v hx']
    -- the radius after the step
    have hclimb : ∀ σ : Fin B → Equiv.Perm (Fin D),
        min (D : ℝ) (s.radius + δ) ≤ (pafsBatchMove t tiny calls h (f k) (lr k) s x σ fun _ => 0).2.radius ∧
        (pafsBatchMove t tiny calls h (f k) (lr k) s x σ fun _ => 0).2.radius ≤ D := fun σ =>
      pafs_hot_climb (t := t) (tiny := tiny) (calls := calls) (s := s) (f := fun i => f (k + i))
        (lr := fun i => lr (k + i)) hB hD0 hh hG0 (fun i => hR (k + i)) (fun i => hG (k + i)) hδ (fun _ => σ)
        (fun _ _ => 0) hx' 0
    -- outcomes that stay away
    have hgood : ∀ (j : ℕ) (σ : Fin B → Equiv.Perm (Fin D)) (a : Fin B → Bool),
        (D : ℝ) ≤ (pafsBatchMove t tiny calls h (f k) (lr k) s x σ fun _ => 0).2.radius + j * δ →
        (∀ b, Away y (maskFlip (x b) (orderMask (numFlips D s.radius) (σ b)))) →
        q ^ j ≤ batchExpect (fun k => pafsLaws h (lr k)) (fun k => pafsBatchMove t tiny calls h (f k) (lr k)) Φ n (k + 1)
          ((pafsBatchMove t tiny calls h (f k) (lr k) s x σ fun _ => 0).2)
          (v ++ [sel (fun b => maskFlip (x b) (orderMask (numFlips D s.radius) (σ b))) x a])
          (sel (fun b => maskFlip (x b) (orderMask (numFlips D s.radius) (σ b))) x a) := by
      intro j σ a hj ha
      have hsel : ∀ b, Away y (sel (fun b => maskFlip (x b) (orderMask (numFlips D s.radius) (σ b))) x a b) := by
        intro b
        unfold sel
        split_ifs
        · exact ha b
        · exact hx b
      refine ih j _ _ _ _ (hclimb σ).2 hj ?_ hsel
      intro X hX
      rcases List.mem_append.1 hX with hX | hX
      · exact hv X hX
      · rw [List.mem_singleton] at hX
        rw [hX]
        exact hsel
    by_cases hfull : numFlips D s.radius = D
    · -- all sites are flipped: complements stay away
      have hall : ∀ σ : Fin B → Equiv.Perm (Fin D), ∀ b,
          Away y (maskFlip (x b) (orderMask (numFlips D s.radius) (σ b))) := by
        intro σ b
        rw [hfull, maskFlip_full]
        exact away_complement (hx b)
      calc q ^ m = ∑ σ : Fin B → Equiv.Perm (Fin D), ∑ a, stepWeight tiny (fun k => pafsLaws h (lr k)) _ k s x σ a * q ^ m := by
            simp only [← Finset.sum_mul]
            rw [H.weight_sum k s hx', one_mul]
        _ ≤ _ := Finset.sum_le_sum fun σ _ => Finset.sum_le_sum fun a _ =>
            mul_le_mul_of_nonneg_left (hgood m σ a ?_ (hall σ)) (H.weight_nonneg k s hx' σ a)
      have h1 := (hclimb σ).1
      have hmδ : 0 ≤ (m : ℝ) * δ := mul_nonneg (Nat.cast_nonneg _) hδ0
      rcases le_total (D : ℝ) (s.radius + δ) with h2 | h2
      · rw [min_eq_left h2] at h1; linarith
      · rw [min_eq_right h2] at h1; linarith
    · have hlt : numFlips D s.radius < D := lt_of_le_of_ne (numFlips_le _) hfull
      have hpos := numFlips_pos hD0 s.radius
      obtain ⟨m, rfl⟩ : ∃ m', m = m' + 1 := by
        cases m with
        | zero =>
          have : s.radius = D := le_antisymm hs (by simpa using hm)
          rw [this, numFlips_full] at hfull
          exact absurd rfl hfull
        | succ m => exact ⟨m, rfl⟩
      have hex : ∀ b, ∃ σ : Equiv.Perm (Fin D), Away y (maskFlip (x b) (orderMask (numFlips D s.radius) σ)) := by
        intro b
        obtain ⟨σ, h1, h2⟩ := exists_order_away hD hpos hlt (hx' b) y
        exact ⟨σ, maskFlip_valid (hx' b) _, h1, h2⟩
      choose σ₀ hσ₀ using hex
      have hw : q ≤ ∏ b, pafsLaws h (lr k) s (x b) (σ₀ b) := by
        rw [hq]
        calc ((Real.exp (-(2 * G)) / D) ^ D) ^ B = ∏ _b : Fin B, (Real.exp (-(2 * G)) / D) ^ D := by
              rw [Finset.prod_const, Finset.card_univ, Fintype.card_fin]
          _ ≤ _ := Finset.prod_le_prod (fun b _ => pow_nonneg hb0 _) fun b _ =>
              pafs_index_ge hh (hG k _ (hx' b)) (σ₀ b).injective hD0
      have hsingle : ∑ a, stepWeight tiny (fun k => pafsLaws h (lr k)) (fun k s x σ =>
            f k (maskFlip x (orderMask (numFlips D s.radius) σ)) +
            pafsLlBack (pafsLogProb h (lr k) none (maskFlip x (orderMask (numFlips D s.radius) σ)))
            (numFlips D s.radius) σ - f k x -
            ∑ j, pafsLlSel (pafsLogProb h (lr k) none x) (numFlips D s.radius) σ j) k s x σ₀ a * q ^ m ≤
          _ := Finset.single_le_sum (f := fun σ => ∑ a, stepWeight tiny (fun k => pafsLaws h (lr k)) (fun k s x σ =>
            f k (maskFlip x (orderMask (numFlips D s.radius) σ)) +
            pafsLlBack (pafsLogProb h (lr k) none (maskFlip x (orderMask (numFlips D s.radius) σ)))
            (numFlips D s.radius) σ - f k x -
            ∑ j, pafsLlSel (pafsLogProb h (lr k) none x) (numFlips D s.radius) σ j) k s x σ a *
            (if σ = σ₀ then q ^ m else 0)) (s := univ)
            (fun σ _ => Finset.sum_nonneg fun a _ => mul_nonneg (H.weight_nonneg k s hx' σ a) (by
              split_ifs
              · exact pow_nonneg hq0 m
              · exact le_rfl)) (mem_univ σ₀) |>.trans' (by simp)
      calc q ^ (m + 1) = q * q ^ m := by rw [pow_succ']
        _ ≤ (∏ b, pafsLaws h (lr k) s (x b) (σ₀ b)) * q ^ m := mul_le_mul_of_nonneg_right hw (pow_nonneg hq0 m)
        _ = ∑ a, stepWeight tiny (fun k => pafsLaws h (lr k)) (fun k s x σ =>
            f k (maskFlip x (orderMask (numFlips D s.radius) σ)) +
            pafsLlBack (pafsLogProb h (lr k) none (maskFlip x (orderMask (numFlips D s.radius) σ)))
            (numFlips D s.radius) σ - f k x -
            ∑ j, pafsLlSel (pafsLogProb h (lr k) none x) (numFlips D s.radius) σ j) k s x σ₀ a * q ^ m := by
            rw [← Finset.sum_mul]
            unfold stepWeight
            rw [← Finset.mul_sum, sum_patProb, mul_one]
        _ ≤ _ := hsingle
        _ ≤ _ := Finset.sum_le_sum fun σ _ => Finset.sum_le_sum fun a _ =>
            mul_le_mul_of_nonneg_left ?_ (H.weight_nonneg k s hx' σ a)
      split_ifs with e
      · subst e
        refine hgood m σ a ?_ hσ₀
        have h1 := (hclimb σ).1
        push_cast at hm
        have hmδ : 0 ≤ (m : ℝ) * δ := mul_nonneg (Nat.cast_nonneg _) hδ0
        rcases le_total (D : ℝ) (s.radius + δ) with h2 | h2
        · rw [min_eq_left h2] at h1; linarith
        · rw [min_eq_right h2] at h1; linarith
      · exact hnn n _ _ _ _ (sel_mem (fun b => H.closed k s _ (hx' b) _) hx' a)

end Hot

/-- **C116 is false of the adaptive path auxiliary sampler.** At temperatures above a bound, if the optimum is unique up to
its complement and no chain starts there, the probability that a run reports less than the optimum does not go to zero: it
is at least a positive number that depends on neither the length of the run nor the log interval. -/
theorem pafs_hot_reports [NeZero B] (hD : 3 ≤ D) {t tiny δ : ℝ} (ht : 0 ≤ tiny) (calls : ℕ) {name : String} {h : ℝ → ℝ}
    (hh : ∀ v, applyWeightLog name v = .ok (h v)) (obj pen : (Fin D → ℤ) → ℝ) {g : (Fin D → ℤ) → Fin D → ℝ} {R G T₀ : ℝ}
    (hR : ∀ x ∈ validStates 2 D, ∀ y ∈ validStates 2 D, (obj x - pen x) - (obj y - pen y) ≤ R)
    (hG : ∀ x ∈ validStates 2 D, ∀ j, |g x j| ≤ G) (hT₀ : 0 < T₀) {temp : ℕ → ℝ} (htemp : ∀ k, T₀ ≤ temp (k + 1))
    (hδ0 : 0 ≤ δ) (hδ : δ + t ≤ Real.exp (-((R + 4 * G * D) / T₀))) {numFlips N : ℕ}
    (hN : (D : ℝ) ≤ numFlips + N * δ) (hn : numFlips ≤ D) {y : Fin D → ℤ}
    (hy : y ∈ optima (validStates 2 D) fun x => obj x - pen x)
    (huniq : ∀ z ∈ optima (validStates 2 D) (fun x => obj x - pen x), z = y ∨ z = complement y) {ref : ℝ} (href : 0 < ref)
    (hfl : -1000000000 < (obj y - pen y) / ref) (logEvery L : ℕ) {ratio : ℝ} (h0 : 0 ≤ ratio) (h1 : ratio ≤ 1)
    (zero : Fin D → ℤ) {x : Fin B → Fin D → ℤ} (hx : ∀ b, Away y (x b)) :
    (((Real.exp (-(2 * (G / T₀))) / D) ^ D) ^ B) ^ N ≤
      adaptiveShortfall (fun k => pafsLaws h (annealRatio g temp k))
        (fun k => pafsBatchMove t tiny calls h (annealEnergy obj pen temp k) (annealRatio g temp k))
        (fun x => obj x - pen x) (fun t => temp t.toNat) ref logEvery L ratio zero (pafsInit numFlips) x y := by
  have hyv := (mem_optima.1 hy).1
  have hG0 : 0 ≤ G := (abs_nonneg _).trans (hG y hyv ⟨0, by omega⟩)
  refine pafs_hot_away (R := R / T₀) (Nat.pos_of_ne_zero (NeZero.ne B)) hD ht hh (div_nonneg hG0 hT₀.le)
    (fun k => annealEnergy_diff hR hT₀ (htemp k)) (fun k => annealScore_le hG hT₀ (htemp k)) hδ0 ?_ y
    (fun v => ?_) (fun v hv => ?_) L N 0 _ [] x (by simpa [pafsInit] using hn) (by simpa [pafsInit] using hN)
    (by simp) hx
  · rwa [show R / T₀ + 4 * (G / T₀) * D = (R + 4 * G * D) / T₀ by ring]
  · split_ifs <;> norm_num
  · rw [if_pos]
    refine replay_worse (S := validStates 2 D) v.get _ href h0 h1 zero x hy hfl ?_ ?_
    · exact Fintype.mem_piFinset.2 fun i => mem_prodStates.2 fun b => (hv _ (List.get_mem v i) b).1
    · intro i _ b hb
      have := hv _ (List.get_mem v i) b
      rcases huniq _ hb with e | e
      · exact this.2.1 e
      · exact this.2.2 e

/-- **C116 is false of the adaptive path auxiliary sampler (Max-Cut).** On a star with two leaves or more, started from
zeros at temperatures above a bound, runs of every length miss the maximum cut with at least this probability. -/
theorem pafs_hot_star_reports [NeZero B] {n : ℕ} (hn2 : 2 ≤ n) {t tiny δ : ℝ} (ht : 0 ≤ tiny) (calls : ℕ) {name : String}
    {h : ℝ → ℝ} (hh : ∀ v, applyWeightLog name v = .ok (h v)) {g : (Fin (n + 1) → ℤ) → Fin (n + 1) → ℝ} {G T₀ : ℝ}
    (hG : ∀ x ∈ validStates 2 (n + 1), ∀ j, |g x j| ≤ G) (hT₀ : 0 < T₀) {temp : ℕ → ℝ} (htemp : ∀ k, T₀ ≤ temp (k + 1))
    (hδ0 : 0 ≤ δ) (hδ : δ + t ≤ Real.exp (-((n + 4 * G * (n + 1)) / T₀))) {numFlips N : ℕ}
    (hN : (n + 1 : ℝ) ≤ numFlips + N * δ) (hn : numFlips ≤ n + 1) {y : Fin (n + 1) → ℤ}
    (hy : y ∈ optima (validStates 2 (n + 1))
      fun x => maxcutObjective (starGraph n) (fun j => (x j : ℝ)) - noPenalty x) {ref : ℝ} (href : 0 < ref)
    (logEvery L : ℕ) {ratio : ℝ} (h0 : 0 ≤ ratio) (h1 : ratio ≤ 1) (zero : Fin (n + 1) → ℤ) :
    (((Real.exp (-(2 * (G / T₀))) / (n + 1)) ^ (n + 1)) ^ B) ^ N ≤
      adaptiveShortfall (B := B) (fun k => pafsLaws h (annealRatio g temp k))
        (fun k => pafsBatchMove t tiny calls h
          (annealEnergy (fun x => maxcutObjective (starGraph n) fun j => (x j : ℝ)) noPenalty temp k)
          (annealRatio g temp k))
        (fun x => maxcutObjective (starGraph n) (fun j => (x j : ℝ)) - noPenalty x) (fun t => temp t.toNat) ref logEvery L
        ratio zero (pafsInit numFlips) (fun _ _ => 0) y := by
  have hzero : (fun _ => 0 : Fin (n + 1) → ℤ) ∈ validStates 2 (n + 1) := mem_validStates_two.2 fun _ => Or.inl rfl
  have hcut : ∀ x ∈ validStates 2 (n + 1), 0 ≤ maxcutObjective (starGraph n) (fun j => (x j : ℝ)) ∧
      maxcutObjective (starGraph n) (fun j => (x j : ℝ)) ≤ n := by
    intro x hx
    have hv := mem_validStates_two.1 hx
    have hterm : ∀ j : Fin n, 0 ≤ (1 - ((x 0 : ℝ) * 2 - 1) * ((x j.succ : ℝ) * 2 - 1)) / 2 ∧
        (1 - ((x 0 : ℝ) * 2 - 1) * ((x j.succ : ℝ) * 2 - 1)) / 2 ≤ 1 := by
      intro j
      rcases hv 0 with h | h <;> rcases hv j.succ with h' | h' <;> rw [h, h'] <;> norm_num
    simp only [maxcutObjective, starGraph, mul_one]
    refine ⟨Finset.sum_nonneg fun j _ => (hterm j).1, ?_⟩
    calc _ ≤ ∑ _j : Fin n, (1 : ℝ) := Finset.sum_le_sum fun j _ => (hterm j).2
      _ = n := by simp
  have hopt : ∀ z, z ∈ optima (validStates 2 (n + 1))
      (fun x => maxcutObjective (starGraph n) (fun j => (x j : ℝ)) - noPenalty x) → ∀ i : Fin n, z i.succ = 1 - z 0 := by
    intro z hz
    refine star_optimum ?_
    simpa only [noPenalty, sub_zero] using hz
  have hyv := mem_validStates_two.1 (mem_optima.1 hy).1
  have key := pafs_hot_reports (D := n + 1) (B := B) (by omega) (t := t) (δ := δ) ht calls hh
    (fun x => maxcutObjective (starGraph n) fun j => (x j : ℝ)) noPenalty (g := g) (R := n) (G := G) (T₀ := T₀)
    (fun x hx y hy => by
      have h1 := hcut x hx
      have h2 := hcut y hy
      simp only [noPenalty, sub_zero]
      linarith) hG hT₀ htemp hδ0 (by push_cast; exact hδ) (by push_cast; exact hN) hn hy ?_ href ?_ logEvery L h0 h1 zero
    (x := fun _ _ => 0) ?_
  · push_cast at key
    exact key
  · intro z hz
    have hzv := mem_validStates_two.1 (mem_optima.1 hz).1
    have e1 := hopt z hz
    have e2 := hopt y hy
    by_cases he : z 0 = y 0
    · left
      funext j
      refine Fin.cases he (fun i => ?_) j
      rw [e1, e2, he]
    · right
      have e0 : z 0 = 1 - y 0 := by
        rcases hzv 0 with a | a <;> rcases hyv 0 with b | b <;> omega
      funext j
      refine Fin.cases e0 (fun i => ?_) j
      unfold complement
      rw [e1, e2, e0]
  · simp only [noPenalty, sub_zero]
    have := div_nonneg (hcut y (mem_optima.1 hy).1).1 href.le
    linarith
  · intro b
    have e2 := hopt y hy ⟨0, by omega⟩
    refine ⟨hzero, fun e => ?_, fun e => ?_⟩
    · have h3 := congrFun e 0
      have h4 := congrFun e (Fin.succ ⟨0, by omega⟩)
      omega
    · have h3 := congrFun e 0
      have h4 := congrFun e (Fin.succ ⟨0, by omega⟩)
      simp only [complement] at h3 h4
      omega

/-- A star with two leaves, gradients of size at most 2, temperatures above 1000, ten chains. -/
example (g : (Fin 3 → ℤ) → Fin 3 → ℝ) (hg : ∀ x ∈ validStates 2 3, ∀ j, |g x j| ≤ 2) (temp : ℕ → ℝ)
    (htemp : ∀ k, 1000 ≤ temp (k + 1)) {y : Fin 3 → ℤ} (hy : y ∈ optima (validStates 2 3)
      fun x => maxcutObjective (starGraph 2) (fun j => (x j : ℝ)) - noPenalty x) (L : ℕ) :
    0 < adaptiveShortfall (B := 10) (fun k => pafsLaws (· / 2) (annealRatio g temp k))
        (fun k => pafsBatchMove (574 / 1000) mhTiny 4 (· / 2)
          (annealEnergy (fun x => maxcutObjective (starGraph 2) fun j => (x j : ℝ)) noPenalty temp k)
          (annealRatio g temp k))
        (fun x => maxcutObjective (starGraph 2) (fun j => (x j : ℝ)) - noPenalty x) (fun t => temp t.toNat) 2 100 L
        1 (fun _ => 0) (pafsInit 1) (fun _ _ => 0) y := by
  refine lt_of_lt_of_le ?_ (pafs_hot_star_reports (B := 10) (n := 2) (name := "SQRT") (G := 2) (T₀ := 1000) (δ := 2 / 5)
    (N := 5) le_rfl mhTiny_nonneg 4 (fun v => rfl) hg (by norm_num) htemp (by norm_num) ?_ (by norm_num) (by norm_num) hy
    two_pos 100 L zero_le_one le_rfl _)
  · positivity
  · have := Real.add_one_le_exp (-(((2 : ℕ) + 4 * 2 * ((2 : ℕ) + 1)) / 1000) : ℝ)
    refine le_trans ?_ this
    norm_num

/-- Three sites, the code's acceptance test and target rate, temperatures above 1000: a chain that starts at zeros reports
less than the optimum `(1, 1, 0)` with a probability of at least `(exp(-1/500)/3)^15`, however long it runs. -/
example (temp : ℕ → ℝ) (htemp : ∀ k, 1000 ≤ temp (k + 1)) (logEvery L : ℕ) (zero : Fin 3 → ℤ) :
    ((((Real.exp (-(2 * (1 / 1000))) / (3 : ℕ)) ^ 3) ^ 1) ^ 5 : ℝ) ≤
      adaptiveShortfall (B := 1) (fun k => pafsLaws (· / 2) (annealRatio (fun _ j => if j = 2 then -1 else 1) temp k))
        (fun k => pafsBatchMove (574 / 1000) mhTiny 4 (· / 2)
          (annealEnergy (fun x => ((x 0 + x 1 - x 2 : ℤ) : ℝ)) (fun _ => 0) temp k)
          (annealRatio (fun _ j => if j = 2 then -1 else 1) temp k))
        (fun x => ((x 0 + x 1 - x 2 : ℤ) : ℝ) - 0) (fun t => temp t.toNat) 2 logEvery L 1 zero (pafsInit 1)
        (fun _ _ => 0) ![1, 1, 0] := by
  have hval : (![1, 1, 0] : Fin 3 → ℤ) ∈ validStates 2 3 := by
    rw [mem_validStates_two]; intro j; fin_cases j <;> simp
  have hmax : ∀ x ∈ validStates 2 3, x 0 + x 1 - x 2 ≤ 2 := by
    intro x hx
    have h0 := mem_validStates_two.1 hx 0
    have h1 := mem_validStates_two.1 hx 1
    have h2 := mem_validStates_two.1 hx 2
    omega
  refine pafs_hot_reports (B := 1) (name := "SQRT") (R := 3) (δ := 2 / 5) (by norm_num) mhTiny_nonneg 4 (fun v => rfl)
    (fun x => ((x 0 + x 1 - x 2 : ℤ) : ℝ)) (fun _ => 0) (fun x hx y hy => ?_) (fun x hx j => ?_) (by norm_num) htemp
    (by norm_num) ?_ (by norm_num) (by norm_num) ?_ ?_ two_pos
    (by show (-1000000000 : ℝ) < (((1 + 1 - 0 : ℤ) : ℝ) - 0) / 2; norm_num) logEvery L zero_le_one le_rfl zero ?_
  · have h1 := hmax x hx
    have h0 := mem_validStates_two.1 hy 0
    have h2 := mem_validStates_two.1 hy 1
    have h3 := mem_validStates_two.1 hy 2
    have : x 0 + x 1 - x 2 - (y 0 + y 1 - y 2) ≤ 3 := by omega
    have : ((x 0 + x 1 - x 2 - (y 0 + y 1 - y 2) : ℤ) : ℝ) ≤ ((3 : ℤ) : ℝ) := by exact_mod_cast this
    push_cast at this ⊢
    linarith
  · split_ifs <;> norm_num
  · have := Real.add_one_le_exp (-((3 + 4 * 1 * (3 : ℕ)) / 1000) : ℝ)
    refine le_trans ?_ this
    norm_num
  · refine mem_optima.2 ⟨hval, fun x hx => ?_⟩
    have h1 := hmax x hx
    have : ((x 0 + x 1 - x 2 : ℤ) : ℝ) ≤ ((2 : ℤ) : ℝ) := by exact_mod_cast h1
    simpa using this
  · intro z hz
    left
    obtain ⟨hz, hm⟩ := mem_optima.1 hz
    have := hm _ hval
    simp only [sub_zero] at this
    have : (![1, 1, 0] : Fin 3 → ℤ) 0 + (![1, 1, 0] : Fin 3 → ℤ) 1 - (![1, 1, 0] : Fin 3 → ℤ) 2 ≤ z 0 + z 1 - z 2 := by
      exact_mod_cast this
    simp at this
    have h0 := mem_validStates_two.1 hz 0
    have h1 := mem_validStates_two.1 hz 1
    have h2 := mem_validStates_two.1 hz 2
    funext j
    fin_cases j <;> simp <;> omega
  · intro b
    refine ⟨mem_validStates_two.2 fun _ => Or.inl rfl, fun e => ?_, fun e => ?_⟩
    · have := congrFun e 0; simp at this
    · have := congrFun e 2; simp [complement] at this

end Discs
