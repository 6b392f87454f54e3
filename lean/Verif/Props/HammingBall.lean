import Verif.Model.HammingBall
import Verif.Props.Gibbs
import Verif.Props.BlockGibbs

/-!
# Properties C10, C11: the Hamming-ball sampler
-/

namespace Discs

open Finset Spec

variable {D : ℕ}

/-! ## Helpers -/

theorem samplesPerHamming_eq {C b : ℕ} (hC : 2 ≤ C) (hb : 1 ≤ b) :
    samplesPerHamming C b = .ok (b * (C - 1)) := by
  unfold samplesPerHamming comb
  rw [if_neg (by omega)]
  have h : b.factorial / (Nat.factorial 1 * (b - 1).factorial) = b := by
    rw [Nat.factorial_one, one_mul, ← Nat.mul_factorial_pred (by omega : b ≠ 0)]
    exact Nat.mul_div_cancel _ (Nat.factorial_pos _)
  show Except.ok _ = _
  rw [h]
  split_ifs with h2
  · subst h2; simp
  · rw [pow_one]

theorem shiftAt_valid {C : ℕ} {x : Fin D → ℤ} (hx : x ∈ validStates C D) (idx : ℕ) (v : ℤ) :
    shiftAt C x idx v ∈ validStates C D := by
  rw [mem_validStates] at *
  intro j
  unfold shiftAt
  have : (0 : ℤ) < C := lt_of_le_of_lt (hx j).1 (hx j).2
  split_ifs
  · exact ⟨Int.emod_nonneg _ this.ne', Int.emod_lt_of_pos _ this⟩
  · exact hx j

theorem shiftAt_eq_addAtMod {C : ℕ} {x : Fin D → ℤ} (hx : x ∈ validStates C D) (idx : ℕ) (v : ℤ) :
    shiftAt C x idx v = addAtMod C x idx v := by
  funext j
  unfold shiftAt addAtMod
  split_ifs
  · rfl
  · rw [emod_of_valid hx]

theorem shiftAt_rev {C : ℕ} {x : Fin D → ℤ} (hx : x ∈ validStates C D) (idx : ℕ) (k : Fin (C - 1)) :
    shiftAt C (shiftAt C x idx (((k : ℕ) + 1 : ℕ) : ℤ)) idx ((((Fin.rev k : Fin (C - 1)) : ℕ) + 1 : ℕ) : ℤ)
      = x := by
  rw [shiftAt_eq_addAtMod (shiftAt_valid hx _ _), shiftAt_eq_addAtMod hx, addAtMod_addAtMod]
  have : (((k : ℕ) + 1 : ℕ) : ℤ) + ((((Fin.rev k : Fin (C - 1)) : ℕ) + 1 : ℕ) : ℤ) = C := by
    have := k.2
    rw [Fin.val_rev]; omega
  rw [this, ← addAtMod_emod, Int.emod_self, addAtMod_zero hx]

/-- Sum over the candidates. -/
theorem sum_hbCandidates (C b start : ℕ) (u : Fin D → ℤ) (F : (Fin D → ℤ) → ℝ) :
    ∑ n, F (hbCandidates C b start u n) =
      F u + ∑ i : Fin b, ∑ k : Fin (C - 1), F (shiftAt C u (start + i) (((k : ℕ) + 1 : ℕ) : ℤ)) := by
  rw [Fin.sum_univ_succ]
  congr 1
  rw [← finProdFinEquiv.sum_comp, Fintype.sum_prod_type]
  refine Finset.sum_congr rfl fun i _ => Finset.sum_congr rfl fun k _ => ?_
  simp only [hbCandidates, Fin.cons_succ, hbNewSamples, finProdFinEquiv_apply_val]
  have hk := k.2
  have h1 : ((k : ℕ) + (C - 1) * (i : ℕ)) / (C - 1) = i := by
    rw [Nat.add_mul_div_left _ _ (by omega), Nat.div_eq_of_lt hk, zero_add]
  have h2 : ((k : ℕ) + (C - 1) * (i : ℕ)) % (C - 1) = k := by
    rw [Nat.add_mul_mod_self_left, Nat.mod_eq_of_lt hk]
  rw [h1, h2]

/-- Re-indexing a sum over valid states by one shift. -/
theorem sum_shiftAt {C : ℕ} (idx : ℕ) (k : Fin (C - 1)) (F G : (Fin D → ℤ) → ℝ) :
    ∑ x ∈ validStates C D, F (shiftAt C x idx (((k : ℕ) + 1 : ℕ) : ℤ)) * G x =
      ∑ x ∈ validStates C D, F x * G (shiftAt C x idx ((((Fin.rev k : Fin (C - 1)) : ℕ) + 1 : ℕ) : ℤ)) := by
  refine Finset.sum_bij' (fun x _ => shiftAt C x idx (((k : ℕ) + 1 : ℕ) : ℤ))
    (fun x _ => shiftAt C x idx ((((Fin.rev k : Fin (C - 1)) : ℕ) + 1 : ℕ) : ℤ)) ?_ ?_ ?_ ?_ ?_
  · intro x hx; exact shiftAt_valid hx _ _
  · intro x hx; exact shiftAt_valid hx _ _
  · intro x hx; exact shiftAt_rev hx idx k
  · intro x hx
    have := shiftAt_rev hx idx (Fin.rev k)
    rwa [Fin.rev_rev] at this
  · intro x hx; rw [shiftAt_rev hx idx k]

theorem sum_rev_shift {C : ℕ} (F : ℤ → ℝ) :
    ∑ k : Fin (C - 1), F ((((Fin.rev k : Fin (C - 1)) : ℕ) + 1 : ℕ) : ℤ) =
      ∑ k : Fin (C - 1), F (((k : ℕ) + 1 : ℕ) : ℤ) :=
  Fintype.sum_equiv Fin.revPerm _ _ fun _ => rfl

/-- Law of the selection among the candidates of `u`. -/
noncomputable def hbSelect (f : (Fin D → ℤ) → ℝ) (C b start : ℕ) (u y : Fin D → ℤ) : ℝ :=
  law (softmax fun n => f (hbCandidates C b start u n)) (hbCandidates C b start u) y

theorem hbSelect_eq (f : (Fin D → ℤ) → ℝ) (C b start : ℕ) (u y : Fin D → ℤ) :
    hbSelect f C b start u y =
      (∑ n, if hbCandidates C b start u n = y then (1 : ℝ) else 0) *
        (Real.exp (f y) / ∑ n, Real.exp (f (hbCandidates C b start u n))) := by
  unfold hbSelect law softmax
  rw [Finset.sum_mul]
  refine Finset.sum_congr rfl fun n _ => ?_
  split_ifs with h
  · simp only [h, one_mul]
  · rw [zero_mul]

theorem hbKernel_eq (f : (Fin D → ℤ) → ℝ) (C b m : ℕ) (s : BlockState) (hb : 1 ≤ b) (hC : 2 ≤ C)
    (x y : Fin D → ℤ) :
    hbKernel f C b m s x y = softmax (hammingLogit m) 0 * hbSelect f C b s.index x y +
      softmax (hammingLogit m) 1 / ((b * (C - 1) : ℕ) : ℝ) * ∑ i : Fin b, ∑ k : Fin (C - 1),
        hbSelect f C b s.index (shiftAt C x (s.index + i) (((k : ℕ) + 1 : ℕ) : ℤ)) y := by
  have hb' : (b : ℝ) ≠ 0 := by exact_mod_cast (by omega : b ≠ 0)
  have hc' : ((C - 1 : ℕ) : ℝ) ≠ 0 := by exact_mod_cast (by omega : C - 1 ≠ 0)
  unfold hbKernel law
  rw [Fintype.sum_prod_type, Fin.sum_univ_two]
  congr 1
  · rw [Fintype.sum_prod_type]
    have : ∀ (i : Fin b), (∑ z : Fin (C - 1) × Fin (b * (C - 1) + 1),
        if (hbStep C b (fun _ : Fin 1 => x) ((0 : Fin 2), i, z).1 (fun _ => ((0 : Fin 2), i, z).2) s).1 0 = y
        then hbDrawLaw f C b m s x ((0 : Fin 2), i, z) else 0) =
        1 / (b : ℝ) * (softmax (hammingLogit m) 0 * hbSelect f C b s.index x y) := by
      intro i
      rw [Fintype.sum_prod_type]
      have : ∀ k : Fin (C - 1), (∑ n : Fin (b * (C - 1) + 1),
          if (hbStep C b (fun _ : Fin 1 => x) ((0 : Fin 2), i, k, n).1
            (fun _ => ((0 : Fin 2), i, k, n).2) s).1 0 = y
          then hbDrawLaw f C b m s x ((0 : Fin 2), i, k, n) else 0) =
          1 / ((C - 1 : ℕ) : ℝ) * (1 / (b : ℝ) * (softmax (hammingLogit m) 0 * hbSelect f C b s.index x y)) := by
        intro k
        unfold hbSelect law
        simp only [Finset.mul_sum]
        refine Finset.sum_congr rfl fun n _ => ?_
        simp only [hbStep, hbAux, hbDrawLaw, if_true]
        split_ifs <;> ring
      simp only [this, Finset.sum_const, Finset.card_univ, Fintype.card_fin, nsmul_eq_mul]
      field_simp
    simp only [this, Finset.sum_const, Finset.card_univ, Fintype.card_fin, nsmul_eq_mul]
    field_simp
  · rw [Fintype.sum_prod_type, Finset.mul_sum]
    refine Finset.sum_congr rfl fun i _ => ?_
    rw [Fintype.sum_prod_type, Finset.mul_sum]
    refine Finset.sum_congr rfl fun k _ => ?_
    unfold hbSelect law
    rw [Finset.mul_sum]
    refine Finset.sum_congr rfl fun n _ => ?_
    have h10 : (1 : Fin 2) ≠ 0 := by decide
    simp only [hbStep, hbAux, hbDrawLaw, if_neg h10]
    split_ifs
    · push_cast; field_simp
    · ring

/-! ## C11: the candidates -/

/-- C11: with the block inside the sample, the candidates scored in one step are pairwise distinct, and
they are exactly the valid points that agree with the centre outside the block and differ from it in
at most one coordinate. -/
theorem hbCandidates_ball {C b start : ℕ} (hin : start + b ≤ D) {u : Fin D → ℤ}
    (hu : u ∈ validStates C D) :
    Function.Injective (hbCandidates C b start u) ∧
    ∀ z, (∃ n, hbCandidates C b start u n = z) ↔ z ∈ validStates C D ∧
      (∀ j : Fin D, ¬ (start ≤ (j : ℕ) ∧ (j : ℕ) < start + b) → z j = u j) ∧
      (univ.filter fun j => z j ≠ u j).card ≤ 1 := by
  have hmove : ∀ n : Fin (b * (C - 1)), ∃ i : Fin D, (i : ℕ) = start + (n : ℕ) / (C - 1) ∧
      (n : ℕ) / (C - 1) < b ∧ 0 < C - 1 := by
    intro n
    have h0 : 0 < C - 1 := Nat.pos_of_ne_zero fun h => by have := n.2; simp [h] at this
    have h1 : (n : ℕ) / (C - 1) < b := Nat.div_lt_of_lt_mul (lt_of_lt_of_eq n.2 (mul_comm _ _))
    exact ⟨⟨start + (n : ℕ) / (C - 1), by omega⟩, rfl, h1, h0⟩
  have hne : ∀ (i : Fin D) (r : ℕ), r < C - 1 → (u i + ((r + 1 : ℕ) : ℤ)) % (C : ℤ) ≠ u i := by
    intro i r hr h
    have h3 := Int.dvd_self_sub_of_emod_eq h
    rw [add_sub_cancel_left] at h3
    have := Int.eq_zero_of_dvd_of_nonneg_of_lt (by positivity) (by omega) h3
    omega
  constructor
  · intro a c
    refine Fin.cases ?_ (fun a => ?_) a <;> refine Fin.cases ?_ (fun c => ?_) c
    · intro _; rfl
    · intro h
      simp only [hbCandidates, Fin.cons_zero, Fin.cons_succ, hbNewSamples] at h
      obtain ⟨i, hi, _, h0⟩ := hmove c
      have := congrFun h i
      simp only [shiftAt, hi, if_true] at this
      exact absurd this.symm (hne i _ (Nat.mod_lt _ h0))
    · intro h
      simp only [hbCandidates, Fin.cons_zero, Fin.cons_succ, hbNewSamples] at h
      obtain ⟨i, hi, _, h0⟩ := hmove a
      have := congrFun h i
      simp only [shiftAt, hi, if_true] at this
      exact absurd this (hne i _ (Nat.mod_lt _ h0))
    · intro h
      simp only [hbCandidates, Fin.cons_succ, hbNewSamples] at h
      obtain ⟨i, hi, _, h0⟩ := hmove a
      obtain ⟨j, hj, _, _⟩ := hmove c
      have hij : (i : ℕ) = start + (c : ℕ) / (C - 1) := by
        by_contra hcon
        have := congrFun h i
        simp only [shiftAt, hi, if_true] at this
        rw [if_neg (by rw [← hi]; exact hcon)] at this
        exact hne i _ (Nat.mod_lt _ h0) this
      have hdiv : (a : ℕ) / (C - 1) = (c : ℕ) / (C - 1) := by omega
      have := congrFun h i
      simp only [shiftAt, hi, hdiv, if_true] at this
      have h4 : (C : ℤ) ∣ (((a : ℕ) % (C - 1) + 1 : ℕ) : ℤ) - (((c : ℕ) % (C - 1) + 1 : ℕ) : ℤ) := by
        have h5 := Int.emod_eq_emod_iff_emod_sub_eq_zero.1 this
        have h6 := Int.dvd_of_emod_eq_zero h5
        have e : (u i + (((a : ℕ) % (C - 1) + 1 : ℕ) : ℤ)) - (u i + (((c : ℕ) % (C - 1) + 1 : ℕ) : ℤ)) =
          (((a : ℕ) % (C - 1) + 1 : ℕ) : ℤ) - (((c : ℕ) % (C - 1) + 1 : ℕ) : ℤ) := by ring
        rwa [e] at h6
      have l1 := Nat.mod_lt (a : ℕ) h0
      have l2 := Nat.mod_lt (c : ℕ) h0
      have hz := Int.eq_zero_of_abs_lt_dvd h4 (by rw [abs_lt]; constructor <;> omega)
      have hmod : (a : ℕ) % (C - 1) = (c : ℕ) % (C - 1) := by omega
      have : (a : ℕ) = c := by
        rw [← Nat.div_add_mod (a : ℕ) (C - 1), ← Nat.div_add_mod (c : ℕ) (C - 1), hdiv, hmod]
      rw [Fin.ext this]
  · intro z
    constructor
    · rintro ⟨n, rfl⟩
      refine Fin.cases ?_ (fun n => ?_) n
      · simp only [hbCandidates, Fin.cons_zero]
        refine ⟨hu, fun _ _ => by trivial, by simp⟩
      · simp only [hbCandidates, Fin.cons_succ, hbNewSamples]
        obtain ⟨i, hi, hib, h0⟩ := hmove n
        refine ⟨shiftAt_valid hu _ _, fun j hj => ?_, ?_⟩
        · unfold shiftAt; rw [if_neg]; intro h; rw [h] at hj; exact hj ⟨Nat.le_add_right _ _, Nat.add_lt_add_left hib _⟩
        · rw [Finset.card_le_one]
          intro p hp q hq
          simp only [shiftAt] at hp hq
          have hp' : (p : ℕ) = start + (n : ℕ) / (C - 1) := by by_contra hc; simp [hc] at hp
          have hq' : (q : ℕ) = start + (n : ℕ) / (C - 1) := by by_contra hc; simp [hc] at hq
          exact Fin.ext (by omega)
    · rintro ⟨hz, hout, hcard⟩
      by_cases hzu : z = u
      · exact ⟨0, by simp [hbCandidates, hzu]⟩
      · obtain ⟨i, hi⟩ := Function.ne_iff.1 hzu
        have hib : start ≤ (i : ℕ) ∧ (i : ℕ) < start + b := by
          by_contra h; exact hi (hout i h)
        have hoth : ∀ j, j ≠ i → z j = u j := by
          intro j hj
          by_contra h
          exact hj (Finset.card_le_one.1 hcard j (by simp [h]) i (by simp [hi]))
        rw [mem_validStates] at hz hu
        have hzi := hz i
        have hui := hu i
        -- offset
        set r := ((z i - u i) % (C : ℤ)).toNat with hr
        have hCpos : (0 : ℤ) < C := by omega
        have hr0 := Int.emod_nonneg (z i - u i) hCpos.ne'
        have hr1 := Int.emod_lt_of_pos (z i - u i) hCpos
        have hrne : (z i - u i) % (C : ℤ) ≠ 0 := by
          intro h
          have := Int.eq_zero_of_abs_lt_dvd (Int.dvd_of_emod_eq_zero h)
            (by rw [abs_lt]; constructor <;> omega)
          exact hi (by omega)
        have hrc : (r : ℤ) = (z i - u i) % (C : ℤ) := Int.toNat_of_nonneg hr0
        have hn : ((i : ℕ) - start) * (C - 1) + (r - 1) < b * (C - 1) := by
          have h1 : (i : ℕ) - start + 1 ≤ b := by omega
          have := Nat.mul_le_mul_right (C - 1) h1
          rw [Nat.succ_mul] at this
          omega
        refine ⟨Fin.succ ⟨((i : ℕ) - start) * (C - 1) + (r - 1), hn⟩, ?_⟩
        simp only [hbCandidates, Fin.cons_succ, hbNewSamples]
        have hr2 : r - 1 < C - 1 := by omega
        have d1 : (((i : ℕ) - start) * (C - 1) + (r - 1)) / (C - 1) = (i : ℕ) - start := by
          rw [add_comm, Nat.add_mul_div_right _ _ (by omega), Nat.div_eq_of_lt hr2, zero_add]
        have d2 : (((i : ℕ) - start) * (C - 1) + (r - 1)) % (C - 1) = r - 1 := by
          rw [add_comm, Nat.add_mul_mod_self_right, Nat.mod_eq_of_lt hr2]
        rw [d1, d2]
        funext j
        unfold shiftAt
        by_cases hj : j = i
        · subst hj
          rw [if_pos (by omega)]
          have : ((r - 1 + 1 : ℕ) : ℤ) = (z j - u j) % (C : ℤ) := by rw [← hrc]; omega
          rw [this, Int.add_emod_emod, add_sub_cancel, Int.emod_eq_of_lt hzi.1 hzi.2]
        · rw [if_neg (by intro h; exact hj (Fin.ext (by omega))), hoth j hj]

/-- C11: the number of candidates is the number added to `num_ll_calls`. -/
theorem hbCandidates_count (C D b : ℕ) (s : BlockState) :
    (hbUpdate C D b s).numLlCalls = s.numLlCalls + Fintype.card (Fin (b * (C - 1) + 1)) := by
  rw [Fintype.card_fin, mul_comm]; rfl

/-- Instance for C11: three sites, block `{0, 1}`, three categories: five candidates. -/
example : (List.finRange 5).map (hbCandidates (D := 3) 3 2 0 ![0, 2, 1]) =
    [![0, 2, 1], ![1, 2, 1], ![2, 2, 1], ![0, 0, 1], ![0, 1, 1]] := by decide

/-! ## C10: invariance -/

/-- C10 (kernel): the step is a probability kernel on valid samples. -/
theorem hb_stochastic (f : (Fin D → ℤ) → ℝ) {C b : ℕ} (hC : 2 ≤ C) (hb : 1 ≤ b) (m : ℕ)
    (s : BlockState) : Stochastic (validStates C D) (hbKernel f C b m s) := by
  have hS : Stochastic (validStates C D) (hbSelect f C b s.index) := by
    refine stochastic_law (fun u _ => isProb_softmax _) fun u hu n => ?_
    refine Fin.cases ?_ (fun n => ?_) n
    · simpa [hbCandidates] using hu
    · simpa [hbCandidates, hbNewSamples] using shiftAt_valid hu _ _
  have hp := isProb_softmax (hammingLogit m)
  have hp1 : softmax (hammingLogit m) 0 + softmax (hammingLogit m) 1 = 1 := by
    have := hp.2; rwa [Fin.sum_univ_two] at this
  have hm : ((b * (C - 1) : ℕ) : ℝ) ≠ 0 := by
    have : b * (C - 1) ≠ 0 := Nat.mul_ne_zero (by omega) (by omega)
    exact_mod_cast this
  refine ⟨fun x hx y => ?_, fun x hx => ?_, fun x hx y hy => ?_⟩
  · rw [hbKernel_eq f C b m s hb hC]
    refine add_nonneg (mul_nonneg (hp.1 0) (hS.1 x hx y)) (mul_nonneg (div_nonneg (hp.1 1)
      (Nat.cast_nonneg _)) (Finset.sum_nonneg fun i _ => Finset.sum_nonneg fun k _ => ?_))
    exact hS.1 _ (shiftAt_valid hx _ _) y
  · simp only [hbKernel_eq f C b m s hb hC]
    rw [Finset.sum_add_distrib, ← Finset.mul_sum, hS.2.1 x hx, ← Finset.mul_sum]
    have : ∑ y ∈ validStates C D, ∑ i : Fin b, ∑ k : Fin (C - 1),
        hbSelect f C b s.index (shiftAt C x (s.index + i) (((k : ℕ) + 1 : ℕ) : ℤ)) y =
        ((b * (C - 1) : ℕ) : ℝ) := by
      rw [Finset.sum_comm]
      have : ∀ i : Fin b, ∑ y ∈ validStates C D, ∑ k : Fin (C - 1),
          hbSelect f C b s.index (shiftAt C x (s.index + i) (((k : ℕ) + 1 : ℕ) : ℤ)) y =
          ((C - 1 : ℕ) : ℝ) := by
        intro i
        rw [Finset.sum_comm]
        have h1 : ∀ k : Fin (C - 1), ∑ y ∈ validStates C D, hbSelect f C b s.index
            (shiftAt C x (s.index + i) (((k : ℕ) + 1 : ℕ) : ℤ)) y = 1 := fun k =>
          hS.2.1 _ (shiftAt_valid hx _ _)
        rw [Finset.sum_congr rfl fun k _ => h1 k]
        simp
      rw [Finset.sum_congr rfl fun i _ => this i]
      simp
    rw [this, div_mul_cancel₀ _ hm, mul_one, hp1]
  · rw [hbKernel_eq f C b m s hb hC, hS.2.2 x hx y hy, mul_zero, zero_add]
    rw [Finset.sum_eq_zero fun i _ => Finset.sum_eq_zero fun k _ =>
      hS.2.2 _ (shiftAt_valid hx _ _) y hy, mul_zero]

/-- C10 (exact defect): one Hamming-ball step started from the target `w = exp ∘ forward` changes the
mass of `y` by `κ · w y · (Σ_c w c / Z c - 1)`, where `c` runs over the candidates of `y`, `Z c` is the
total weight of the candidates of `c`, and `κ = P(radius 0) - P(radius 1) / m`. -/
theorem hb_defect (f : (Fin D → ℤ) → ℝ) {C b : ℕ} (hC : 2 ≤ C) (hb : 1 ≤ b) (m : ℕ)
    (hm : m = b * (C - 1)) (s : BlockState) {y : Fin D → ℤ} (hy : y ∈ validStates C D) :
    ∑ x ∈ validStates C D, Real.exp (f x) * hbKernel f C b m s x y - Real.exp (f y) =
      (softmax (hammingLogit m) 0 - softmax (hammingLogit m) 1 / m) * Real.exp (f y) *
        (∑ n, Real.exp (f (hbCandidates C b s.index y n)) /
          (∑ n', Real.exp (f (hbCandidates C b s.index (hbCandidates C b s.index y n) n'))) - 1) := by
  set w : (Fin D → ℤ) → ℝ := fun x => Real.exp (f x) with hw
  set Z : (Fin D → ℤ) → ℝ := fun u => ∑ n, w (hbCandidates C b s.index u n) with hZ
  set p0 := softmax (hammingLogit m) 0
  set p1 := softmax (hammingLogit m) 1
  have hZpos : ∀ u, 0 < Z u := fun u => Finset.sum_pos (fun _ _ => Real.exp_pos _) univ_nonempty
  have hp1 : p0 + p1 = 1 := by
    have := (isProb_softmax (hammingLogit m)).2; rwa [Fin.sum_univ_two] at this
  have hmne : (m : ℝ) ≠ 0 := by
    have : b * (C - 1) ≠ 0 := Nat.mul_ne_zero (by omega) (by omega)
    rw [hm]; exact_mod_cast this
  -- adjoint of the candidate sum
  have hadj : ∀ H : (Fin D → ℤ) → ℝ, ∑ u ∈ validStates C D, H u *
      (∑ n, if hbCandidates C b s.index u n = y then (1 : ℝ) else 0) =
      ∑ n, H (hbCandidates C b s.index y n) := by
    intro H
    rw [sum_hbCandidates]
    have : ∀ u, (∑ n, if hbCandidates C b s.index u n = y then (1 : ℝ) else 0) =
        (if u = y then (1 : ℝ) else 0) + ∑ i : Fin b, ∑ k : Fin (C - 1),
          if shiftAt C u (s.index + i) (((k : ℕ) + 1 : ℕ) : ℤ) = y then (1 : ℝ) else 0 := fun u =>
      sum_hbCandidates C b s.index u (fun z => if z = y then (1 : ℝ) else 0)
    simp only [this, mul_add, Finset.sum_add_distrib]
    congr 1
    · simp [hy]
    · simp only [Finset.mul_sum]
      rw [Finset.sum_comm]
      refine Finset.sum_congr rfl fun i _ => ?_
      rw [Finset.sum_comm, ← sum_rev_shift (fun v => H (shiftAt C y (s.index + i) v))]
      refine Finset.sum_congr rfl fun k _ => ?_
      have := sum_shiftAt (D := D) (C := C) (s.index + i) k (fun z => if z = y then (1 : ℝ) else 0) H
      simp only [mul_comm (H _)]
      rw [this]
      simp [hy]
  have hself : ∀ G : (Fin D → ℤ) → ℝ, ∑ x ∈ validStates C D, w x * (∑ i : Fin b, ∑ k : Fin (C - 1),
      G (shiftAt C x (s.index + i) (((k : ℕ) + 1 : ℕ) : ℤ))) =
      ∑ u ∈ validStates C D, (Z u - w u) * G u := by
    intro G
    have hZw : ∀ u, Z u - w u = ∑ i : Fin b, ∑ k : Fin (C - 1),
        w (shiftAt C u (s.index + i) (((k : ℕ) + 1 : ℕ) : ℤ)) := by
      intro u
      rw [hZ]
      simp only
      rw [sum_hbCandidates]; ring
    simp only [hZw, Finset.mul_sum, Finset.sum_mul]
    rw [Finset.sum_comm, Finset.sum_comm (s := validStates C D)]
    refine Finset.sum_congr rfl fun i _ => ?_
    rw [Finset.sum_comm, Finset.sum_comm (s := validStates C D)]
    refine Fintype.sum_equiv Fin.revPerm _ _ fun k => ?_
    have := sum_shiftAt (D := D) (C := C) (s.index + i) k G w
    simp only [mul_comm (w _), Fin.revPerm_apply]
    exact this
  have hsel : ∀ u, hbSelect f C b s.index u y =
      w y * ((∑ n, if hbCandidates C b s.index u n = y then (1 : ℝ) else 0) / Z u) := by
    intro u; rw [hbSelect_eq]; simp only [hZ, hw]; ring
  have hmc : ((b * (C - 1) : ℕ) : ℝ) = m := by rw [hm]
  simp only [hbKernel_eq f C b m s hb hC, hmc]
  calc ∑ x ∈ validStates C D, w x * (p0 * hbSelect f C b s.index x y + p1 / m *
          ∑ i : Fin b, ∑ k : Fin (C - 1),
            hbSelect f C b s.index (shiftAt C x (s.index + i) (((k : ℕ) + 1 : ℕ) : ℤ)) y) - w y
      = p0 * ∑ x ∈ validStates C D, w x * hbSelect f C b s.index x y +
        p1 / m * ∑ x ∈ validStates C D, w x * (∑ i : Fin b, ∑ k : Fin (C - 1),
            hbSelect f C b s.index (shiftAt C x (s.index + i) (((k : ℕ) + 1 : ℕ) : ℤ)) y) - w y := by
        rw [Finset.mul_sum, Finset.mul_sum, ← Finset.sum_add_distrib]
        congr 1
        exact Finset.sum_congr rfl fun x _ => by ring
    _ = p0 * ∑ u ∈ validStates C D, w u * hbSelect f C b s.index u y +
        p1 / m * ∑ u ∈ validStates C D, (Z u - w u) * hbSelect f C b s.index u y - w y := by
        rw [hself (fun u => hbSelect f C b s.index u y)]
    _ = (p0 - p1 / m) * ∑ u ∈ validStates C D, w u * hbSelect f C b s.index u y +
        p1 / m * ∑ u ∈ validStates C D, Z u * hbSelect f C b s.index u y - w y := by
        have : ∑ u ∈ validStates C D, (Z u - w u) * hbSelect f C b s.index u y =
            ∑ u ∈ validStates C D, Z u * hbSelect f C b s.index u y -
            ∑ u ∈ validStates C D, w u * hbSelect f C b s.index u y := by
          rw [← Finset.sum_sub_distrib]; exact Finset.sum_congr rfl fun u _ => by ring
        rw [this]; ring
    _ = (p0 - p1 / m) * (w y * ∑ n, w (hbCandidates C b s.index y n) / Z (hbCandidates C b s.index y n)) +
        p1 / m * (w y * ∑ _n : Fin (b * (C - 1) + 1), (1 : ℝ)) - w y := by
        rw [← hadj (fun u => w u / Z u), ← hadj (fun _ => 1),
          Finset.mul_sum (a := w y), Finset.mul_sum (a := w y)]
        congr 3
        · refine Finset.sum_congr rfl fun u _ => ?_
          rw [hsel]; ring
        · refine Finset.sum_congr rfl fun u _ => ?_
          rw [hsel]
          have := (hZpos u).ne'
          field_simp
    _ = _ := by
        have hc : ∑ _n : Fin (b * (C - 1) + 1), (1 : ℝ) = m + 1 := by
          rw [Finset.sum_const, Finset.card_univ, Fintype.card_fin, nsmul_eq_mul, mul_one,
            Nat.cast_add, hmc, Nat.cast_one]
        rw [hc]
        simp only [hw, hZ]
        have : p0 = 1 - p1 := by linarith
        rw [this]
        field_simp
        ring

/-- The coefficient `κ` vanishes only for a single neighbour. -/
theorem hb_coeff_neg {m : ℕ} (hm : 2 ≤ m) :
    softmax (hammingLogit m) 0 - softmax (hammingLogit m) 1 / m < 0 := by
  unfold softmax hammingLogit
  rw [Fin.sum_univ_two]
  simp only [Matrix.cons_val_zero, Matrix.cons_val_one]
  have hpos : 0 < Real.exp 1 + Real.exp (m : ℝ) := by positivity
  have hm0 : (0 : ℝ) < m := by positivity
  have hlt : (m : ℝ) * Real.exp 1 < Real.exp m := by
    have h1 : (m : ℝ) < Real.exp ((m : ℝ) - 1) := by
      have h2 : (2 : ℝ) ≤ m := by exact_mod_cast hm
      have := Real.add_one_lt_exp (x := (m : ℝ) - 1) (by linarith)
      linarith
    have := mul_lt_mul_of_pos_right h1 (Real.exp_pos 1)
    rwa [← Real.exp_add, sub_add_cancel] at this
  rw [sub_neg, div_div, div_lt_div_iff₀ hpos (by positivity)]
  nlinarith

/-- C10 is false for blocks of two or more sites: for every block size `b ≥ 2` inside the sample and
every number of categories `C ≥ 2` there is a log-likelihood whose distribution the Hamming-ball step
does not preserve (so the step is not reversible for it either). -/
theorem hb_not_invariant {C b : ℕ} (hC : 2 ≤ C) (hb : 2 ≤ b) (hbD : b ≤ D) :
    ∃ f : (Fin D → ℤ) → ℝ,
      ¬ Invariant (validStates C D) (fun x => Real.exp (f x)) (hbKernel f C b (b * (C - 1)) blockInit) ∧
      ¬ Reversible (validStates C D) (fun x => Real.exp (f x))
        (hbKernel f C b (b * (C - 1)) blockInit) := by
  classical
  set f : (Fin D → ℤ) → ℝ := fun x => if x = 0 then Real.log 2 else 0 with hf
  set m := b * (C - 1) with hm
  have hw : ∀ x, Real.exp (f x) = 1 + if x = 0 then 1 else 0 := by
    intro x; simp only [hf]; split_ifs
    · rw [Real.exp_log (by norm_num)]; norm_num
    · rw [Real.exp_zero]; norm_num
  have hm2 : 2 ≤ m := by
    rw [hm]; calc 2 = 2 * 1 := rfl
      _ ≤ b * (C - 1) := Nat.mul_le_mul hb (by omega)
  have hinv : ¬ Invariant (validStates C D) (fun x => Real.exp (f x)) (hbKernel f C b m blockInit) := by
    intro hI
    have hD : 0 < D := by omega
    have h0v : (0 : Fin D → ℤ) ∈ validStates C D := by
      rw [mem_validStates]; intro j; simp; omega
    set y : Fin D → ℤ := shiftAt C 0 0 1 with hy
    have hyv : y ∈ validStates C D := shiftAt_valid h0v _ _
    have hy0 : ∀ j : Fin D, y j = if (j : ℕ) = 0 then 1 else 0 := by
      intro j
      rw [hy]; unfold shiftAt
      split_ifs
      · show (0 + 1 : ℤ) % C = 1
        rw [zero_add, Int.emod_eq_of_lt (by norm_num) (by omega)]
      · rfl
    have hdef := hb_defect f hC (by omega) m hm blockInit hyv
    have := hI y hyv
    simp only at this
    rw [this, sub_self] at hdef
    have hκ := hb_coeff_neg hm2
    have hwy := Real.exp_pos (f y)
    have hT := (mul_eq_zero.1 hdef.symm).resolve_left (mul_ne_zero hκ.ne hwy.ne')
    have hidx : blockInit.index = 0 := rfl
    rw [hidx] at hT
    -- total weights
    set mult : (Fin D → ℤ) → ℝ := fun u =>
      ∑ n, if hbCandidates C b 0 u n = 0 then (1 : ℝ) else 0 with hmult
    have hZ : ∀ u, ∑ n, Real.exp (f (hbCandidates C b 0 u n)) = (m + 1) + mult u := by
      intro u
      simp only [hw, Finset.sum_add_distrib, Finset.sum_const, Finset.card_univ, Fintype.card_fin,
        nsmul_eq_mul, mul_one]
      rw [Nat.cast_add, Nat.cast_one]
    have hmult0 : ∀ u, 0 ≤ mult u := fun u => Finset.sum_nonneg fun n _ => by split_ifs <;> norm_num
    have hmult1 : ∀ u ∈ validStates C D, mult u ≤ 1 := by
      intro u hu
      have hinj := (hbCandidates_ball (by omega : 0 + b ≤ D) hu).1
      rw [hmult]
      simp only
      rw [← Finset.sum_filter, Finset.sum_const, nsmul_eq_mul, mul_one]
      have : (univ.filter fun n => hbCandidates C b 0 u n = 0).card ≤ 1 := by
        rw [Finset.card_le_one]
        intro p hp q hq
        simp only [mem_filter, mem_univ, true_and] at hp hq
        exact hinj (hp.trans hq.symm)
      exact_mod_cast this
    simp only [hZ] at hT
    rw [sum_hbCandidates C b 0 y (fun c => Real.exp (f c) / ((m : ℝ) + 1 + mult c))] at hT
    obtain ⟨b', rfl⟩ : ∃ b', b = b' + 1 := ⟨b - 1, by omega⟩
    rw [Fin.sum_univ_succ] at hT
    -- positions other than the first contribute 1/(m+1)
    have hfar : ∀ (i : Fin b') (k : Fin (C - 1)),
        Real.exp (f (shiftAt C y (0 + (i.succ : Fin (b' + 1))) (((k : ℕ) + 1 : ℕ) : ℤ))) /
          ((m : ℝ) + 1 + mult (shiftAt C y (0 + (i.succ : Fin (b' + 1))) (((k : ℕ) + 1 : ℕ) : ℤ))) =
        1 / (m + 1) := by
      intro i k
      set c := shiftAt C y (0 + (i.succ : Fin (b' + 1))) (((k : ℕ) + 1 : ℕ) : ℤ) with hc
      have hk := k.2
      have hi := i.2
      have hj0 : (⟨0, hD⟩ : Fin D) ≠ ⟨i + 1, by omega⟩ := by
        intro h; have := congrArg Fin.val h; simp at this
      have hc0 : c ⟨0, hD⟩ = 1 := by
        rw [hc]; unfold shiftAt
        rw [if_neg (by simp), hy0, if_pos rfl]
      have hci : c ⟨i + 1, by omega⟩ = (k : ℕ) + 1 := by
        rw [hc]; unfold shiftAt
        rw [if_pos (by simp), hy0, if_neg (by simp), zero_add, Int.emod_eq_of_lt (by positivity)
          (by omega)]
        push_cast; rfl
      have hcv : c ∈ validStates C D := shiftAt_valid hyv _ _
      have hcne : c ≠ 0 := fun h => by rw [h] at hc0; simp at hc0
      have hmc : mult c = 0 := by
        rw [hmult]
        refine Finset.sum_eq_zero fun n _ => if_neg fun h => ?_
        have hball := ((hbCandidates_ball (by omega : 0 + (b' + 1) ≤ D) hcv).2 0).1 ⟨n, h⟩
        have := Finset.card_le_one.1 hball.2.2 ⟨0, hD⟩ (by simp [hc0]) ⟨i + 1, by omega⟩ (by
          simp only [mem_filter, mem_univ, true_and, hci, Pi.zero_apply]; omega)
        exact hj0 this
      rw [hmc, add_zero, hw, if_neg hcne, add_zero]
    simp only [hfar] at hT
    -- first position and the centre
    have hmpos : (0 : ℝ) < m := by positivity
    have hnear : ∀ u ∈ validStates C D, Real.exp (f u) / ((m : ℝ) + 2) ≤
        Real.exp (f u) / ((m : ℝ) + 1 + mult u) := by
      intro u hu
      refine div_le_div_of_nonneg_left (Real.exp_pos _).le (by linarith [hmult0 u]) ?_
      linarith [hmult1 u hu]
    have hsum0 : ((C : ℝ) - 1 + 1) / ((m : ℝ) + 2) ≤ ∑ k : Fin (C - 1),
        Real.exp (f (shiftAt C y (0 + ((0 : Fin (b' + 1)) : ℕ)) (((k : ℕ) + 1 : ℕ) : ℤ))) /
          ((m : ℝ) + 1 + mult (shiftAt C y (0 + ((0 : Fin (b' + 1)) : ℕ)) (((k : ℕ) + 1 : ℕ) : ℤ))) := by
      refine le_trans ?_ (Finset.sum_le_sum fun k _ => hnear _ (shiftAt_valid hyv _ _))
      rw [← Finset.sum_div]
      refine div_le_div_of_nonneg_right ?_ (by positivity)
      simp only [hw, Finset.sum_add_distrib, Finset.sum_const, Finset.card_univ, Fintype.card_fin,
        nsmul_eq_mul, mul_one]
      rw [Nat.cast_sub (by omega), Nat.cast_one]
      have hone : (1 : ℝ) ≤ ∑ k : Fin (C - 1),
          if shiftAt C y (0 + ((0 : Fin (b' + 1)) : ℕ)) (((k : ℕ) + 1 : ℕ) : ℤ) = 0 then (1 : ℝ) else 0 := by
        have hz : shiftAt C y (0 + ((0 : Fin (b' + 1)) : ℕ))
            ((((⟨C - 2, by omega⟩ : Fin (C - 1)) : ℕ) + 1 : ℕ) : ℤ) = 0 := by
          funext j
          unfold shiftAt
          split_ifs with hj
          · have hj' : (j : ℕ) = 0 := by simpa using hj
            rw [hy0, if_pos hj']
            have : (1 + ((C - 2 + 1 : ℕ) : ℤ)) = C := by omega
            simp only [this, Int.emod_self, Pi.zero_apply]
          · have hj' : (j : ℕ) ≠ 0 := by simpa using hj
            rw [hy0, if_neg hj']; rfl
        refine le_trans ?_ (Finset.single_le_sum (f := fun k : Fin (C - 1) =>
          if shiftAt C y (0 + ((0 : Fin (b' + 1)) : ℕ)) (((k : ℕ) + 1 : ℕ) : ℤ) = 0 then (1 : ℝ) else 0)
          (fun k _ => by split_ifs <;> norm_num) (Finset.mem_univ (⟨C - 2, by omega⟩ : Fin (C - 1))))
        simp only [hz, if_true]; exact le_rfl
      linarith
    have hyterm := hnear y hyv
    have hwy1 : (1 : ℝ) ≤ Real.exp (f y) := by
      rw [hw]; split_ifs <;> norm_num
    have hy1 : 1 / ((m : ℝ) + 2) ≤ Real.exp (f y) / ((m : ℝ) + 1 + mult y) :=
      le_trans (div_le_div_of_nonneg_right hwy1 (by positivity)) hyterm
    simp only [Finset.sum_const, Finset.card_univ, Fintype.card_fin, nsmul_eq_mul] at hT
    have hmeq : (m : ℝ) = (b' + 1) * ((C : ℝ) - 1) := by
      rw [hm]; push_cast [Nat.cast_sub (by omega : 1 ≤ C)]; ring
    rw [Nat.cast_sub (by omega), Nat.cast_one] at hT
    have hb1 : (1 : ℝ) ≤ b' := by exact_mod_cast (by omega : 1 ≤ b')
    have hC2 : (2 : ℝ) ≤ C := by exact_mod_cast hC
    have hc1 : (1 : ℝ) ≤ (b' : ℝ) * ((C : ℝ) - 1) := by nlinarith
    have e3 : (b' : ℝ) * (((C : ℝ) - 1) * (1 / ((m : ℝ) + 1))) = (b' : ℝ) * ((C : ℝ) - 1) / (m + 1) := by
      ring
    rw [e3] at hT
    have hm' : (m : ℝ) = b' * ((C : ℝ) - 1) + (C - 1) := by rw [hmeq]; ring
    have hfinal : 1 < 1 / ((m : ℝ) + 2) + (((C : ℝ) - 1 + 1) / ((m : ℝ) + 2)) +
        (b' : ℝ) * ((C : ℝ) - 1) / (m + 1) := by
      rw [← add_div, div_add_div _ _ (by positivity) (by positivity), lt_div_iff₀ (by positivity)]
      set c := (b' : ℝ) * ((C : ℝ) - 1)
      rw [hm']
      nlinarith
    linarith
  refine ⟨f, hinv, fun hr => hinv (invariant_of_reversible hr (hb_stochastic f hC (by omega) m _))⟩

/-- C10, the part that holds: with `block_size = 1` the Hamming-ball kernel coincides with the Gibbs
kernel of the same coordinate, hence is reversible. -/
theorem hb_block1_eq_gibbs (f : (Fin D → ℤ) → ℝ) {C : ℕ} (hC : 2 ≤ C) (m : ℕ)
    (hm : samplesPerHamming C 1 = .ok m) (s : BlockState)
    {x : Fin D → ℤ} (hx : x ∈ validStates C D) (y : Fin D → ℤ) :
    hbKernel f C 1 m s x y = gibbsKernel f C ⟨s.steps, s.numLlCalls, s.index⟩ x y := by
  have hC0 : 0 < C := by omega
  have hne : NeZero C := ⟨by omega⟩
  have hm' : m = 1 * (C - 1) := by
    rw [samplesPerHamming_eq hC le_rfl] at hm; injection hm with h; exact h.symm
  -- candidate sums are Gibbs sums
  have hsum : ∀ u ∈ validStates C D, ∀ F : (Fin D → ℤ) → ℝ,
      ∑ n, F (hbCandidates C 1 s.index u n) = ∑ k : Fin C, F (addAtMod C u s.index ((k : ℕ) : ℤ)) := by
    intro u hu F
    rw [sum_hbCandidates]
    obtain ⟨c, rfl⟩ : ∃ c, C = c + 1 := ⟨C - 1, by omega⟩
    rw [Fin.sum_univ_one, Fin.sum_univ_succ (n := c)]
    simp only [Fin.val_zero, Nat.cast_zero, addAtMod_zero hu, Fin.val_succ, add_zero,
      shiftAt_eq_addAtMod hu]
    rfl
  have hfib : ∀ u ∈ validStates C D, ∀ k₀ : Fin C, ∀ F : (Fin D → ℤ) → ℝ,
      ∑ k : Fin C, F (addAtMod C (addAtMod C u s.index ((k₀ : ℕ) : ℤ)) s.index ((k : ℕ) : ℤ)) =
      ∑ k : Fin C, F (addAtMod C u s.index ((k : ℕ) : ℤ)) := by
    intro u hu k₀ F
    rw [← Equiv.sum_comp (Equiv.addLeft k₀) (fun k => F (addAtMod C u s.index ((k : ℕ) : ℤ)))]
    refine Finset.sum_congr rfl fun k _ => ?_
    rw [Equiv.coe_addLeft, addAtMod_fin_add]
  have hG : ∀ u ∈ validStates C D, hbSelect f C 1 s.index u y =
      (∑ k : Fin C, if addAtMod C u s.index ((k : ℕ) : ℤ) = y then (1 : ℝ) else 0) *
        (Real.exp (f y) / ∑ k : Fin C, Real.exp (f (addAtMod C u s.index ((k : ℕ) : ℤ)))) := by
    intro u hu
    rw [hbSelect_eq, hsum u hu (fun z => if z = y then (1 : ℝ) else 0),
      hsum u hu (fun z => Real.exp (f z))]
  have hshift : ∀ (i : Fin 1) (k : Fin (C - 1)),
      hbSelect f C 1 s.index (shiftAt C x (s.index + i) (((k : ℕ) + 1 : ℕ) : ℤ)) y =
      hbSelect f C 1 s.index x y := by
    intro i k
    have hi : s.index + (i : ℕ) = s.index := by have := i.2; omega
    rw [hi, hG _ (shiftAt_valid hx _ _), hG x hx, shiftAt_eq_addAtMod hx]
    have := hfib x hx ⟨k + 1, by have := k.2; omega⟩
    simp only at this
    rw [this (fun z => if z = y then (1 : ℝ) else 0), this (fun z => Real.exp (f z))]
  have hp1 : softmax (hammingLogit m) 0 + softmax (hammingLogit m) 1 = 1 := by
    have := (isProb_softmax (hammingLogit m)).2; rwa [Fin.sum_univ_two] at this
  have hmne : ((1 * (C - 1) : ℕ) : ℝ) ≠ 0 := by
    have : 1 * (C - 1) ≠ 0 := by omega
    exact_mod_cast this
  have hK : hbKernel f C 1 m s x y = hbSelect f C 1 s.index x y := by
    rw [hbKernel_eq f C 1 m s le_rfl hC]
    simp only [hshift, Finset.sum_const, Finset.card_univ, Fintype.card_fin, nsmul_eq_mul, one_mul,
      Nat.cast_one]
    rw [one_mul] at hmne
    rw [← mul_assoc, div_mul_cancel₀ _ hmne, ← add_mul, hp1, one_mul]
  rw [hK, hG x hx]
  have hsc : ∀ k : Fin C, gibbsScores f C x s.index k = f (addAtMod C x s.index ((k : ℕ) : ℤ)) := by
    intro k
    unfold gibbsScores
    split_ifs with h
    · rw [h]; simp [addAtMod_zero hx]
    · rfl
  unfold gibbsKernel gibbsDraw gibbsStep law softmax
  simp only [hsc]
  rw [Finset.sum_mul]
  refine Finset.sum_congr rfl fun k _ => ?_
  split_ifs with h
  · rw [h, one_mul]
  · rw [zero_mul]

/-- C10 (partial): reversibility for `block_size = 1`.  Missing: it fails for larger blocks
(`hb_not_invariant`). -/
theorem hb_reversible_partial (f : (Fin D → ℤ) → ℝ) {C : ℕ} (hC : 2 ≤ C) (m : ℕ)
    (hm : samplesPerHamming C 1 = .ok m) (s : BlockState) :
    Reversible (validStates C D) (fun x => Real.exp (f x)) (hbKernel f C 1 m s) := by
  intro x hx y hy
  rw [hb_block1_eq_gibbs f hC m hm s hx, hb_block1_eq_gibbs f hC m hm s hy]
  exact gibbs_reversible f (by omega) _ x hx y hy

/-- Instance for C10: two categories, three sites, blocks of two. -/
example : ∃ f : (Fin 3 → ℤ) → ℝ, ¬ Invariant (validStates 2 3) (fun x => Real.exp (f x))
    (hbKernel f 2 2 (2 * (2 - 1)) blockInit) :=
  let ⟨f, h, _⟩ := hb_not_invariant (D := 3) (C := 2) (b := 2) le_rfl le_rfl (by norm_num)
  ⟨f, h⟩

example : samplesPerHamming 3 1 = .ok 2 := samplesPerHamming_eq (by norm_num) le_rfl

/-! ## C08 for the Hamming-ball sampler -/

/-- C05/C08: the sampler state after `t` Hamming-ball steps. -/
theorem hb_state_iterate (C b t : ℕ) :
    (hbUpdate C D b)^[t] blockInit = ⟨t, t * ((C - 1) * b + 1), t * b % D⟩ := by
  induction t with
  | zero => simp [blockInit]
  | succ t ih =>
    rw [Function.iterate_succ_apply', ih]
    simp only [hbUpdate, Nat.succ_mul, Nat.mod_add_mod]

/-- C08 (Hamming ball): covered within the first `⌈dim / block_size⌉` steps, in every window of
`dim / gcd(dim, block_size)` steps, and exactly once per `dim / block_size` steps when `block_size`
divides `dim`. -/
theorem hb_schedule (C : ℕ) {b : ℕ} (hb : 0 < b) (i : Fin D) (t₀ : ℕ) :
    (∃ t < (D + b - 1) / b, covers ((hbUpdate C D b)^[t] blockInit).index b i) ∧
    (∃ t, t₀ ≤ t ∧ t < t₀ + D / Nat.gcd D b ∧ covers ((hbUpdate C D b)^[t] blockInit).index b i) ∧
    (b ∣ D → ∃! t, t₀ ≤ t ∧ t < t₀ + D / b ∧ covers ((hbUpdate C D b)^[t] blockInit).index b i) := by
  simp only [hb_state_iterate]
  exact ⟨block_covers_first hb i, block_covers_window hb i t₀, fun h => block_covers_unique hb h i t₀⟩

end Discs
