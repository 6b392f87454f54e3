import Verif.Lemmas.Forget
import Verif.Props.Convergence

/-!
# Property C72 for the Hamming-ball sampler with larger blocks

With blocks of two or more sites the sampler does not preserve the target (C10).  It still forgets its
start: it converges, geometrically, to a law of its own.  For some models that law is not the target,
and no amount of running brings it closer.
-/

namespace Discs

open Finset Spec

variable {D : ℕ}

/-- One step may change any single site of the block to any value (or nothing). -/
theorem hbKernel_pos (f : (Fin D → ℤ) → ℝ) {C b : ℕ} (hC : 2 ≤ C) (hb : 1 ≤ b) (m : ℕ) (s : BlockState)
    {x y : Fin D → ℤ} (hx : x ∈ validStates C D) (hy : y ∈ validStates C D) {i : Fin D}
    (hi : covers s.index b i) (h : ∀ j, j ≠ i → y j = x j) : 0 < hbKernel f C b m s x y := by
  have hCz : (0 : ℤ) < C := by exact_mod_cast (by omega : 0 < C)
  obtain ⟨n, hn⟩ : ∃ n, hbCandidates C b s.index x n = y := by
    by_cases hxy : y i = x i
    · refine ⟨0, ?_⟩
      simp only [hbCandidates, Fin.cons_zero]
      funext j
      by_cases hj : j = i
      · rw [hj, hxy]
      · rw [h j hj]
    · have h0 := Int.emod_nonneg (y i - x i) hCz.ne'
      have h1 := Int.emod_lt_of_pos (y i - x i) hCz
      have hne : (y i - x i) % (C : ℤ) ≠ 0 := by
        intro hh
        have h3 : y i % C = x i % C := Int.emod_eq_emod_iff_emod_sub_eq_zero.2 hh
        rw [emod_of_valid hy, emod_of_valid hx] at h3
        exact hxy h3
      have hlt : ((i : ℕ) - s.index) * (C - 1) + (((y i - x i) % (C : ℤ)).toNat - 1) < b * (C - 1) := by
        have h2 : (i : ℕ) - s.index + 1 ≤ b := by have := hi.1; have := hi.2; omega
        calc _ < ((i : ℕ) - s.index) * (C - 1) + (C - 1) := by omega
          _ = ((i : ℕ) - s.index + 1) * (C - 1) := by ring
          _ ≤ b * (C - 1) := Nat.mul_le_mul_right _ h2
      refine ⟨Fin.succ ⟨_, hlt⟩, ?_⟩
      simp only [hbCandidates, Fin.cons_succ, hbNewSamples]
      have hpos : 0 < C - 1 := by omega
      have hlt2 : ((y i - x i) % (C : ℤ)).toNat - 1 < C - 1 := by omega
      have e1 : (((i : ℕ) - s.index) * (C - 1) + (((y i - x i) % (C : ℤ)).toNat - 1)) / (C - 1) =
          (i : ℕ) - s.index := by
        rw [mul_comm, Nat.mul_add_div hpos, Nat.div_eq_of_lt hlt2, add_zero]
      have e2 : (((i : ℕ) - s.index) * (C - 1) + (((y i - x i) % (C : ℤ)).toNat - 1)) % (C - 1) =
          ((y i - x i) % (C : ℤ)).toNat - 1 := by
        rw [mul_comm, Nat.mul_add_mod, Nat.mod_eq_of_lt hlt2]
      rw [e1, e2]
      have e3 : s.index + ((i : ℕ) - s.index) = i := by have := hi.1; omega
      have e4 : ((((y i - x i) % (C : ℤ)).toNat - 1 + 1 : ℕ) : ℤ) = (y i - x i) % (C : ℤ) := by omega
      rw [e3, e4]
      funext j
      unfold shiftAt
      split_ifs with hj
      · have : j = i := Fin.ext hj
        rw [this, Int.add_emod_emod, add_sub_cancel, emod_of_valid hy]
      · exact (h j fun hh => hj (by rw [hh])).symm
  have hbR : (0 : ℝ) < b := by exact_mod_cast hb
  have hcR : (0 : ℝ) < ((C - 1 : ℕ) : ℝ) := by exact_mod_cast (by omega : 0 < C - 1)
  have hlaw := law_pos (p := hbDrawLaw f C b m s x)
    (f := fun d => (hbStep C b (fun _ : Fin 1 => x) d.1 (fun _ => d.2) s).1 0)
    (ω₀ := ((0 : Fin 2), (⟨0, hb⟩ : Fin b), (⟨0, by omega⟩ : Fin (C - 1)), n))
    (fun d => mul_nonneg (mul_nonneg (mul_nonneg ((isProb_softmax _).1 _) (by positivity)) (by positivity))
      ((isProb_softmax _).1 _))
    (mul_pos (mul_pos (mul_pos (softmax_pos _ _) (by positivity)) (by positivity)) (softmax_pos _ _))
  have e : (hbStep C b (fun _ : Fin 1 => x) (0 : Fin 2)
      (fun _ => ((⟨0, hb⟩ : Fin b), (⟨0, by omega⟩ : Fin (C - 1)), n)) s).1 0 = y := by
    simp only [hbStep, hbAux, if_true]
    exact hn
  rw [e] at hlaw
  exact hlaw

theorem hbKernel_index (f : (Fin D → ℤ) → ℝ) (C b m : ℕ) {s s' : BlockState} (h : s.index = s'.index) :
    hbKernel f C b m s = hbKernel f C b m s' := by
  have h1 : ∀ x, hbDrawLaw f C b m s x = hbDrawLaw f C b m s' x := fun x => funext fun d => by
    simp only [hbDrawLaw, h]
  funext x y
  simp only [hbKernel, hbStep, h1, h]

/-- **C72 (Hamming ball, any block size).** The Hamming-ball run converges geometrically to one law `μ`
(looked at once per `dim` steps, after which the blocks repeat), whatever the start; `μ` is a probability
distribution and is the one a run of `dim` steps preserves. -/
theorem hb_converges_own (f : (Fin D → ℤ) → ℝ) {C b : ℕ} (hC : 2 ≤ C) (hD : 0 < D) (hb : 1 ≤ b) (m : ℕ) :
    ∃ μ : (Fin D → ℤ) → ℝ, (∀ y ∈ validStates C D, 0 ≤ μ y) ∧ ∑ y ∈ validStates C D, μ y = 1 ∧
      Invariant (validStates C D) μ (iterate (validStates C D)
        (fun t => hbKernel f C b m ((hbUpdate C D b)^[t] blockInit)) D) ∧
      ∃ c, 0 ≤ c ∧ c < 1 ∧ ∀ x ∈ validStates C D, ∀ k,
        l1 (validStates C D) (iterate (validStates C D)
          (fun t => hbKernel f C b m ((hbUpdate C D b)^[t] blockInit)) (k * D) x) μ ≤
            2 * c ^ (k * D / (D * D)) := by
  set K : ℕ → (Fin D → ℤ) → (Fin D → ℤ) → ℝ := fun t => hbKernel f C b m ((hbUpdate C D b)^[t] blockInit)
  have hK : ∀ t, Stochastic (validStates C D) (K t) := fun t => hb_stochastic f hC hb m _
  have hper : ∀ t, K (t + D) = K t := fun t =>
    hbKernel_index f C b m (by simp [hb_state_iterate, add_mul])
  have hpos : ∀ t, ∀ x ∈ validStates C D, ∀ y ∈ validStates C D,
      0 < iterate (validStates C D) (fun i => K (t + i)) (D * D) x y := by
    intro t
    refine iterate_pos_of_touch (fun i => hK _)
      (fun i => {j | (j : ℕ) = i / D ∧ covers ((hbUpdate C D b)^[t + i] blockInit).index b j})
      (fun i x hx y hy h => ?_) mix_valid fun j => ?_
    · by_cases hc : ∃ j : Fin D, (j : ℕ) = i / D ∧ covers ((hbUpdate C D b)^[t + i] blockInit).index b j
      · obtain ⟨j, hj, hjc⟩ := hc
        exact hbKernel_pos f hC hb m _ hx hy hjc fun j' hj' => h j' fun hm =>
          hj' (Fin.ext (hm.1.trans hj.symm))
      · have hxy : y = x := funext fun j => h j fun hm => hc ⟨j, hm⟩
        have hlt : ((hbUpdate C D b)^[t + i] blockInit).index < D := by
          rw [hb_state_iterate]; exact Nat.mod_lt _ hD
        exact hbKernel_pos f hC hb m _ hx hy (i := ⟨_, hlt⟩)
          ⟨le_rfl, Nat.lt_add_of_pos_right hb⟩ fun j' _ => by rw [hxy]
    · obtain ⟨t', h1, h2, h3⟩ := (hb_schedule C hb j (t + (j : ℕ) * D)).2.1
      have hle : D / Nat.gcd D b ≤ D := Nat.div_le_self _ _
      have h4 : t' - t < ((j : ℕ) + 1) * D := by rw [Nat.succ_mul]; omega
      refine ⟨t' - t, lt_of_lt_of_le h4 (Nat.mul_le_mul_right _ j.2), ?_, ?_⟩
      · have h5 : (j : ℕ) * D ≤ t' - t := by omega
        exact (Nat.div_eq_of_lt_le h5 h4).symm
      · rw [Nat.add_sub_cancel' (by omega)]; exact h3
  obtain ⟨c, h0, h1, hc⟩ := forgets_of_pos hD hK hper hpos
  have hne : (validStates C D).Nonempty := ⟨fun _ => 0, by
    rw [mem_validStates]; intro j; exact ⟨le_rfl, by exact_mod_cast (by omega : 0 < C)⟩⟩
  obtain ⟨μ, e1, e2, e3, e4⟩ := exists_limit_of_forgets (Nat.mul_pos hD hD) hD hne hK hper h0 h1 hc
  exact ⟨μ, e1, e2, e3, c, h0, h1, e4⟩

/-- **C72 (refuted for the Hamming ball with larger blocks).** For every block size of at least two
inside the sample there are a model and a distance `δ > 0` such that, from every start and at every
sweep, the law of the run is at least `δ` away from the target after that sweep or one step later.  The
run therefore never converges to the target. -/
theorem hb_never_converges {C b : ℕ} (hC : 2 ≤ C) (hb : 2 ≤ b) (hbD : b ≤ D) :
    ∃ (f : (Fin D → ℤ) → ℝ) (δ : ℝ), 0 < δ ∧ ∀ x ∈ validStates C D, ∀ k,
      let law := fun n => iterate (validStates C D)
        (fun t => hbKernel f C b (b * (C - 1)) ((hbUpdate C D b)^[t] blockInit)) n x
      let tgt := target (validStates C D) fun x => Real.exp (f x)
      δ ≤ l1 (validStates C D) (law (k * D)) tgt ∨ δ ≤ l1 (validStates C D) (law (k * D + 1)) tgt := by
  obtain ⟨f, hf, -⟩ := hb_not_invariant hC hb hbD
  have hne : (validStates C D).Nonempty := ⟨fun _ => 0, by
    rw [mem_validStates]; intro j; exact ⟨le_rfl, by exact_mod_cast (by omega : 0 < C)⟩⟩
  set S := validStates C D
  set K : ℕ → (Fin D → ℤ) → (Fin D → ℤ) → ℝ := fun t =>
    hbKernel f C b (b * (C - 1)) ((hbUpdate C D b)^[t] blockInit) with hKdef
  set tgt := target S fun x => Real.exp (f x) with htgt
  have hK : ∀ t, Stochastic S (K t) := fun t => hb_stochastic f hC (by omega) _ _
  have hZ : 0 < ∑ x ∈ S, Real.exp (f x) := Finset.sum_pos (fun _ _ => Real.exp_pos _) hne
  have hδ : 0 < l1 S (push S tgt (K 0)) tgt := by
    refine lt_of_le_of_ne (l1_nonneg _ _ _) fun h0 => hf fun y hy => ?_
    have h1 : |push S tgt (K 0) y - tgt y| = 0 :=
      (Finset.sum_eq_zero_iff_of_nonneg fun _ _ => abs_nonneg _).1 h0.symm y hy
    have h2 := sub_eq_zero.1 (abs_eq_zero.1 h1)
    rw [htgt] at h2
    unfold push target at h2
    have h3 : ∑ x ∈ S, Real.exp (f x) / (∑ x ∈ S, Real.exp (f x)) * K 0 x y =
        (∑ x ∈ S, Real.exp (f x) * K 0 x y) / ∑ x ∈ S, Real.exp (f x) := by
      rw [Finset.sum_div]; exact Finset.sum_congr rfl fun x _ => by ring
    rw [h3, div_left_inj' hZ.ne'] at h2
    exact h2
  refine ⟨f, l1 S (push S tgt (K 0)) tgt / 2, by linarith, fun x hx k => ?_⟩
  have hKk : K (k * D) = K 0 := hbKernel_index f C b _ (by
    simp only [hb_state_iterate, zero_mul, Nat.zero_mod]
    rw [mul_right_comm, Nat.mul_mod_left])
  have := defect_le hK (sum_target hZ) hx (k * D)
  rw [hKk] at this
  by_contra hcon
  dsimp only at hcon
  push Not at hcon
  linarith [hcon.1, hcon.2]

/-- Hence that run is not ergodic for its target. -/
theorem hb_not_ergodic {C b : ℕ} (hC : 2 ≤ C) (hb : 2 ≤ b) (hbD : b ≤ D) :
    ∃ f : (Fin D → ℤ) → ℝ, ¬ Ergodic (validStates C D) (fun x => Real.exp (f x))
      (fun t => hbKernel f C b (b * (C - 1)) ((hbUpdate C D b)^[t] blockInit)) := by
  obtain ⟨f, δ, hδ, h⟩ := hb_never_converges hC hb hbD
  refine ⟨f, ?_⟩
  rintro ⟨m, hm, c, h0, h1, hc⟩
  have hx : (fun _ => 0 : Fin D → ℤ) ∈ validStates C D := by
    rw [mem_validStates]; intro j; exact ⟨le_rfl, by exact_mod_cast (by omega : 0 < C)⟩
  have ht := (tendsto_pow_atTop_nhds_zero_of_lt_one h0 h1).const_mul 2
  rw [mul_zero] at ht
  obtain ⟨N, hN⟩ := (ht.eventually (gt_mem_nhds hδ)).exists
  have hD : 0 < D := by omega
  have hlarge : ∀ n, N * m ≤ n → 2 * c ^ (n / m) < δ := fun n hn =>
    lt_of_le_of_lt (mul_le_mul_of_nonneg_left (pow_le_pow_of_le_one h0 h1.le
      ((Nat.le_div_iff_mul_le hm).2 hn)) (by norm_num)) hN
  have hle : N * m ≤ N * m * D := Nat.le_mul_of_pos_right _ hD
  rcases h _ hx (N * m) with h2 | h2
  · have := hc _ hx (N * m * D)
    rw [add_zero] at this
    exact absurd (h2.trans this) (not_le.2 (hlarge _ hle))
  · have := hc _ hx (N * m * D + 1)
    rw [add_zero] at this
    exact absurd (h2.trans this) (not_le.2 (hlarge _ (by omega)))

/-- Instance: the configured defaults (`block_size = 10`, here ten binary sites) fall under
`hb_never_converges`, and under `hb_converges_own`. -/
example : (2 : ℕ) ≤ 2 ∧ (2 : ℕ) ≤ 10 ∧ (10 : ℕ) ≤ 10 ∧ samplesPerHamming 2 10 = .ok 10 :=
  ⟨le_rfl, by norm_num, le_rfl, samplesPerHamming_eq le_rfl (by norm_num)⟩

end Discs
