import Mathlib.InformationTheory.Hamming
import Verif.Props.GWG
import Verif.Props.DMALA
import Verif.Props.PathAux

/-!
# Properties C58, C59: shape of the moves

C58: the DMALA proposal has the advertised odds.  C59: a step changes at most (path-auxiliary binary:
exactly, when accepted) the announced number of sites.
-/

namespace Discs

open Finset Spec

variable {B D : ℕ}

/-- Whatever holds of the current row and of the proposed row holds of the selected row. -/
theorem mhStep_ind {X : Type*} {P : X → Prop} {tiny : ℝ} {u l : Fin B → ℝ} {x y : Fin B → X} {b : Fin B}
    (hx : P (x b)) (hy : P (y b)) : P ((mhStep tiny u l x y).1 b) := by
  unfold mhStep
  dsimp only
  split_ifs
  · exact hy
  · exact hx

/-! ## C58 -/

/-- C58 (binary DMALA): a site flips with odds `exp(log_tau) * exp(w)`. -/
theorem dmalaFlip_odds (logTau w : ℝ) :
    dmalaFlipProb logTau w / (1 - dmalaFlipProb logTau w) = Real.exp logTau * Real.exp w := by
  rw [dmalaFlipProb_eq, ← sigmoid_neg, ← Real.exp_add]
  unfold sigmoid
  rw [neg_neg, Real.exp_neg]
  have := Real.exp_pos (logTau + w)
  field_simp
  ring

/-- C58 (categorical DMALA): the probability of proposing category `k` relative to staying at the
current category `v` is `exp(log_tau) * exp(w k)`. -/
theorem dmalaCateg_odds {C : ℕ} (logTau : ℝ) (w : Fin C → ℝ) (v k : Fin C) (hk : k ≠ v) :
    softmax (dmalaCategDist logTau w (oneHot C (v : ℕ))) k =
      Real.exp logTau * Real.exp (w k) * softmax (dmalaCategDist logTau w (oneHot C (v : ℕ))) v := by
  have hne : Nonempty (Fin C) := ⟨v⟩
  unfold dmalaCategDist
  rw [softmax_logSoftmax, softmax_logSoftmax]
  unfold softmax
  have h1 : oneHot C (v : ℕ) v = 1 := by simp [oneHot]
  have h2 : oneHot C (v : ℕ) k = 0 := by
    unfold oneHot
    rw [if_neg]
    intro h
    exact hk (Fin.ext (by exact_mod_cast h))
  simp only [h1, h2, sub_self, mul_zero, Real.exp_zero, sub_zero, mul_one, Real.exp_add]
  ring

/-- Instance for C58: three categories, `log_tau = 0`, rates 2 and 3: odds 2. -/
example : softmax (dmalaCategDist 0 ![0, Real.log 2, Real.log 3] (oneHot 3 ((0 : Fin 3) : ℕ))) 1 =
    2 * softmax (dmalaCategDist 0 ![0, Real.log 2, Real.log 3] (oneHot 3 ((0 : Fin 3) : ℕ))) 0 := by
  rw [dmalaCateg_odds 0 _ 0 1 (by decide)]
  simp [Real.exp_log]

/-! ## C59 -/

theorem hammingDist_le_of_image {k : ℕ} (x y : Fin D → ℤ) (idx : Fin k → Fin D)
    (h : ∀ j, (∀ i, idx i ≠ j) → y j = x j) : hammingDist x y ≤ k := by
  unfold hammingDist
  calc #{j | x j ≠ y j} ≤ #(univ.image idx) := by
        refine card_le_card fun j hj => ?_
        rw [mem_filter] at hj
        rw [mem_image]
        by_contra hc
        push Not at hc
        exact hj.2 (h j fun i => hc i (mem_univ i)).symm
    _ ≤ #(univ : Finset (Fin k)) := card_image_le
    _ = k := by simp

/-- C59 (binary GWG): a step changes at most `num_flips` sites of each chain. -/
theorem gwgBinary_moves {k : ℕ} (tiny : ℝ) (h : ℝ → ℝ) (f : (Fin D → ℤ) → ℝ)
    (g : (Fin D → ℤ) → Fin D → ℝ) (mask : Option (Fin B → Fin D → ℝ)) (x : Fin B → Fin D → ℤ)
    (idx : Fin B → Fin k → Fin D) (u : Fin B → ℝ) (s : LBState) (b : Fin B) :
    hammingDist (x b) ((gwgBinaryStep tiny h f g mask x idx u s).1 b) ≤ k := by
  simp only [gwgBinaryStep, lbSelectBinary]
  refine mhStep_ind (P := fun z => hammingDist (x b) z ≤ k) (x := x)
    (y := fun b => gwgPropose (x b) (idx b)) ?_ ?_
  · rw [hammingDist_self]; exact Nat.zero_le _
  · refine hammingDist_le_of_image _ _ (idx b) ?_
    intro j hj
    unfold gwgPropose
    rw [if_neg fun ⟨i, hi⟩ => hj i hi]

/-- C59 (adaptive GWG): at most the rounded radius. -/
theorem gwgAdaptive_moves (hD : 0 < D) (target tiny : ℝ) (h : ℝ → ℝ) (f : (Fin D → ℤ) → ℝ)
    (g : (Fin D → ℤ) → Fin D → ℝ) (mask : Option (Fin B → Fin D → ℝ)) (x : Fin B → Fin D → ℤ)
    (s : LBState) (idx : Fin B → Fin (numFlips D s.radius) → Fin D) (u : Fin B → ℝ) (b : Fin B) :
    hammingDist (x b) ((gwgAdaptiveStep hD target tiny h f g mask x s idx u).1 b) ≤
      numFlips D s.radius := by
  simp only [gwgAdaptiveStep, lbSelectBinary]
  refine mhStep_ind (P := fun z => hammingDist (x b) z ≤ numFlips D s.radius) (x := x)
    (y := fun b => gwgProposeAdaptive (x b) (gwgSelected (numFlips_pos hD s.radius) (idx b))) ?_ ?_
  · rw [hammingDist_self]; exact Nat.zero_le _
  · refine hammingDist_le_of_image _ _ (idx b) ?_
    intro j hj
    rw [gwgProposeAdaptive_eq]
    unfold gwgPropose
    rw [if_neg fun ⟨i, hi⟩ => hj i hi]

/-- C59 (categorical GWG): at most one site. -/
theorem cgwg_moves {C : ℕ} (tiny : ℝ) (h : ℝ → ℝ) (f : (Fin D → Fin C → ℝ) → ℝ)
    (g : (Fin D → Fin C → ℝ) → Fin D → Fin C → ℝ) (x : Fin B → Fin D → ℤ)
    (hx : ∀ b, x b ∈ validStates C D) (idx : Fin B → Fin (D * C)) (u : Fin B → ℝ) (s : LBState)
    (b : Fin B) : hammingDist (x b) ((cgwgStep tiny h C f g x idx u s).1 b) ≤ 1 := by
  simp only [cgwgStep, lbSelectCateg]
  refine mhStep_ind (P := fun z => hammingDist (x b) (argmaxRow z) ≤ 1)
    (x := fun b => oneHotRow C (x b))
    (y := fun b => oneHotRow C (cgwgPropose (argmaxRow (oneHotRow C (x b))) (idx b))) ?_ ?_
  · rw [argmaxRow_oneHotRow (hx b), hammingDist_self]; exact Nat.zero_le _
  · rw [argmaxRow_oneHotRow (hx b), argmaxRow_oneHotRow (cgwgPropose_valid (hx b) _)]
    refine hammingDist_le_of_image _ _ (fun _ : Fin 1 => (idx b).divNat) ?_
    intro j hj
    unfold cgwgPropose
    rw [if_neg fun e => hj 0 e.symm]

theorem card_orderMask (ns : ℕ) (hns : ns ≤ D) (σ : Equiv.Perm (Fin D)) :
    #{j | orderMask ns σ j = true} = ns := by
  have : ({j | orderMask ns σ j = true} : Finset (Fin D)) =
      (univ.filter fun i : Fin D => (i : ℕ) < ns).map σ.toEmbedding := by
    ext j
    simp only [mem_filter, mem_univ, true_and, mem_map, orderMask, decide_eq_true_eq]
    constructor
    · intro h; exact ⟨σ.symm j, h, by simp⟩
    · rintro ⟨i, hi, rfl⟩; simpa using hi
  rw [this, card_map]
  rw [show (univ.filter fun i : Fin D => (i : ℕ) < ns) = univ.filter fun i : Fin D => (i : ℕ) < ns from rfl]
  rw [Fin.card_filter_val_lt]
  omega

/-- C59 (path-auxiliary, binary, fixed number of flips): a chain either stays or changes exactly
`num_flips` sites (the drawn indices are distinct). -/
theorem pafsBinary_moves {k : ℕ} (tiny : ℝ) (calls : ℕ) (h : ℝ → ℝ) (f : (Fin D → ℤ) → ℝ)
    (lr : (Fin D → ℤ) → Fin D → ℝ) (mask : Option (Fin B → Fin D → ℝ)) (x : Fin B → Fin D → ℤ)
    (idx : Fin B → Fin k → Fin D) (u : Fin B → ℝ) (s : LBState) (b : Fin B)
    (hinj : Function.Injective (idx b)) :
    (pafsBinaryStep tiny calls h f lr mask x idx u s).1 b = x b ∨
      hammingDist (x b) ((pafsBinaryStep tiny calls h f lr mask x idx u s).1 b) = k := by
  simp only [pafsBinaryStep, lbSelectBinary]
  refine mhStep_ind (P := fun z => z = x b ∨ hammingDist (x b) z = k) (x := x)
    (y := fun b => gwgPropose (x b) (idx b)) (Or.inl rfl) (Or.inr ?_)
  · unfold hammingDist
    have : ({j | x b j ≠ gwgPropose (x b) (idx b) j} : Finset (Fin D)) = univ.image (idx b) := by
      ext j
      simp only [mem_filter, mem_univ, true_and, mem_image]
      unfold gwgPropose
      split_ifs with hj
      · simp only [hj, iff_true]; omega
      · simp [hj]
    rw [this, card_image_of_injective _ hinj, card_univ, Fintype.card_fin]

/-- C59 (path-auxiliary, binary, adaptive): a chain either stays or changes exactly the rounded radius. -/
theorem pafsAdaptive_moves (target tiny : ℝ) (calls : ℕ) (h : ℝ → ℝ) (f : (Fin D → ℤ) → ℝ)
    (lr : (Fin D → ℤ) → Fin D → ℝ) (mask : Option (Fin B → Fin D → ℝ)) (x : Fin B → Fin D → ℤ)
    (σ : Fin B → Equiv.Perm (Fin D)) (u : Fin B → ℝ) (s : LBState) (b : Fin B) :
    (pafsAdaptiveStep target tiny calls h f lr mask x σ u s).1 b = x b ∨
      hammingDist (x b) ((pafsAdaptiveStep target tiny calls h f lr mask x σ u s).1 b) =
        numFlips D s.radius := by
  simp only [pafsAdaptiveStep, lbSelectBinary]
  refine mhStep_ind (P := fun z => z = x b ∨ hammingDist (x b) z = numFlips D s.radius) (x := x)
    (y := fun b => maskFlip (x b) (orderMask (numFlips D s.radius) (σ b))) (Or.inl rfl) (Or.inr ?_)
  · unfold hammingDist
    refine Eq.trans ?_ (card_orderMask (numFlips D s.radius) (by unfold numFlips; omega) (σ b))
    congr 1
    ext j
    simp only [mem_filter, mem_univ, true_and]
    unfold maskFlip
    cases orderMask (numFlips D s.radius) (σ b) j
    · simp
    · simp only [if_true, iff_true]; omega

/-- C59 (path-auxiliary, categorical, adaptive): at most the rounded radius. -/
theorem pafsCategAdaptive_moves (target tiny : ℝ) (calls : ℕ) (h : ℝ → ℝ) {C : ℕ}
    (f : (Fin D → Fin C → ℝ) → ℝ) (lr : (Fin D → Fin C → ℝ) → Fin D → Fin C → ℝ)
    (mask : Option (Fin B → Fin D → ℝ)) (x : Fin B → Fin D → ℤ) (hx : ∀ b, x b ∈ validStates C D)
    (σ : Fin B → Equiv.Perm (Fin D)) (v : Fin B → Fin D → Fin C) (u : Fin B → ℝ) (s : LBState)
    (b : Fin B) :
    hammingDist (x b) ((pafsCategAdaptiveStep target tiny calls h C f lr mask x σ v u s).1 b) ≤
      numFlips D s.radius := by
  simp only [pafsCategAdaptiveStep, lbSelectCateg]
  refine mhStep_ind (P := fun z => hammingDist (x b) (argmaxRow z) ≤ numFlips D s.radius)
    (x := fun b => oneHotRow C (x b))
    (y := fun b => oneHotRow C (maskSet (x b) (orderMask (numFlips D s.radius) (σ b)) (v b))) ?_ ?_
  · rw [argmaxRow_oneHotRow (hx b), hammingDist_self]; exact Nat.zero_le _
  · have hy : maskSet (x b) (orderMask (numFlips D s.radius) (σ b)) (v b) ∈ validStates C D := by
      have hb := hx b
      rw [mem_validStates] at hb ⊢
      intro j
      unfold maskSet
      split_ifs
      · exact ⟨by positivity, by exact_mod_cast (v b j).2⟩
      · exact hb j
    rw [argmaxRow_oneHotRow hy]
    unfold hammingDist
    conv_rhs => rw [← card_orderMask (numFlips D s.radius) (by unfold numFlips; omega) (σ b)]
    refine card_le_card fun j hj => ?_
    rw [mem_filter] at hj ⊢
    refine ⟨mem_univ j, ?_⟩
    by_contra hc
    exact hj.2 (by unfold maskSet; rw [if_neg hc])

/-- Instance for C59: flipping sites 0 and 2 of three. -/
example : hammingDist (![0, 1, 1] : Fin 3 → ℤ) (gwgPropose ![0, 1, 1] ![0, 2]) = 2 := by decide

end Discs
