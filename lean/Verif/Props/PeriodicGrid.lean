import Verif.Lemmas.ForgetStart
import Verif.Props.PeriodicIff
import Verif.Props.GridNoise

/-!
# Property C73 with the acceptance noise of the code

The acceptance test of the code is `log (u + 1e-24) < log ratio` with `u` one of `M = 2 ^ 23` equally spaced numbers.  A ratio
above `1 - 1 / M + 1e-24` is therefore always accepted, and one of at most `1e-24` never.  The exact conditions of
`gwg_one_ergodic_iff` and `pafs_ergodic_iff` change accordingly.
-/

namespace Discs

open Finset Spec

variable {D : ℕ}

theorem zero_valid : (fun _ : Fin D => (0 : ℤ)) ∈ validStates 2 D := by
  rw [mem_validStates_two]; intro j; left; rfl

/-- **C73 (GWG, one flip, noise of the code).** Suppose no flip has a ratio of `1e-24` or less.  Then the one-flip GWG chain
forgets its start if and only if some flip of some state has ratio at most `1 - 1 / M + 1e-24`.  Otherwise nothing is ever
rejected and the chain alternates between the two parities for ever. -/
theorem gwg_one_forgets_iff (hD : 0 < D) (h : ℝ → ℝ) (f : (Fin D → ℤ) → ℝ) (g : (Fin D → ℤ) → Fin D → ℝ)
    (mask : Option (Fin D → ℝ)) (s : ℕ → LBState) {M : ℕ} (hM : 0 < M)
    (hacc : ∀ x ∈ validStates 2 D, ∀ i, mhTiny * (Real.exp (f x) * softmax (gwgDist h mask x (g x)) i) <
      Real.exp (f (Function.update x i (1 - x i))) *
        softmax (gwgDist h mask (Function.update x i (1 - x i)) (g (Function.update x i (1 - x i)))) i) :
    Forgets (validStates 2 D) (fun t => gwgBinaryKernelG M 1 mhTiny h f g mask (s t)) ↔
      ∃ x ∈ validStates 2 D, ∃ i,
        Real.exp (f (Function.update x i (1 - x i))) *
          softmax (gwgDist h mask (Function.update x i (1 - x i)) (g (Function.update x i (1 - x i)))) i ≤
        (1 - 1 / M + mhTiny) * (Real.exp (f x) * softmax (gwgDist h mask x (g x)) i) := by
  have : Nonempty (Fin D) := ⟨⟨0, hD⟩⟩
  have hlaw : ∀ x (i : Fin D), gwgDrawLaw (k := 1) h g mask x (fun _ => i) =
      softmax (gwgDist h mask x (g x)) i := fun x i => by simp [gwgDrawLaw]
  have hidx : ∀ idx : Fin 1 → Fin D, ∃ i, idx = fun _ => i := fun idx =>
    ⟨idx 0, funext fun i => by rw [Subsingleton.elim i 0]⟩
  have hsite : ∀ x ∈ validStates 2 D, ∀ idx : Fin 1 → Fin D, signProd (gwgPropose x idx) = - signProd x := by
    intro x hx idx
    obtain ⟨i, rfl⟩ := hidx idx
    have : (univ.filter fun j => gwgPropose x (fun _ : Fin 1 => i) j ≠ x j) = {i} := by
      ext j
      have h1 := mem_validStates_two.1 hx j
      rw [gwgPropose_one]
      simp only [mem_filter, mem_univ, true_and, mem_singleton]
      by_cases hj : j = i
      · subst hj; rw [Function.update_self]; simp; omega
      · rw [Function.update_of_ne hj]; simp [hj]
    rw [signProd_diff hx (gwgPropose_valid hx _), this, Finset.card_singleton]; ring
  rw [(gwg_pathMH hD 1 h f g mask).forgets_iff (K := fun t => gwgBinaryKernelG M 1 mhTiny h f g mask (s t))
    ⟨_, zero_valid⟩ (fun x hx => signProd_abs hx) (fun x hx idx _ => hsite x hx idx) (fun x hx y hy => ?_) hM mhTiny_pos
    (fun x hx idx _ => ?_) (fun t => gwg_isMH 1 mhTiny h f g mask (s t)) fun t x _ y => rfl]
  · refine exists_congr fun x => and_congr_right fun hx => ⟨?_, ?_⟩
    · rintro ⟨idx, -, hne⟩
      obtain ⟨i, rfl⟩ := hidx idx
      refine ⟨i, ?_⟩
      rwa [gwgPropose_one, hlaw, hlaw] at hne
    · rintro ⟨i, hne⟩
      refine ⟨fun _ => i, by rw [hlaw]; exact softmax_pos _ _, ?_⟩
      rwa [gwgPropose_one, hlaw, hlaw]
  · refine ⟨_, Walk.sites mix_valid (fun a ha b hb => ?_) x hx y hy⟩
    rintro ⟨i, h1, h2⟩
    refine ⟨fun _ => i, ?_, by rw [hlaw]; exact softmax_pos _ _⟩
    rw [gwgPropose_one]
    have ha' := mem_validStates_two.1 ha i
    have hb' := mem_validStates_two.1 hb i
    funext j
    by_cases hj : j = i
    · subst hj; rw [Function.update_self]; omega
    · rw [Function.update_of_ne hj, h2 j hj]
  · obtain ⟨i, rfl⟩ := hidx idx
    rw [gwgPropose_one, hlaw, hlaw]
    exact hacc x hx i

theorem pafsIdxLaw_pos {k : ℕ} (lp : Fin D → ℝ) (idx : Fin k → Fin D) (hi : Function.Injective idx) :
    0 < pafsIdxLaw lp idx := by
  refine lt_of_le_of_ne (seqDraw_nonneg (fun _ => (Real.exp_pos _).le) _ _) (Ne.symm ?_)
  exact (seqDraw_ne_zero_iff (fun i => Real.exp_pos _) _ _).2 ⟨List.nodup_ofFn.2 hi, fun _ _ => Finset.notMem_empty _⟩

/-- A step of the path-auxiliary sampler keeps what every move keeps. -/
theorem pafs_keeps {k : ℕ} (h : ℝ → ℝ) (f : (Fin D → ℤ) → ℝ) (lr : (Fin D → ℤ) → Fin D → ℝ)
    (mask : Option (Fin D → ℝ)) (s : LBState) {M : ℕ} (hM : 0 < M) (hD : 0 < D) (hk : k ≤ D) {φ : (Fin D → ℤ) → ℝ}
    (hφ : ∀ x ∈ validStates 2 D, ∀ idx : Fin k → Fin D, Function.Injective idx → φ (gwgPropose x idx) = φ x) :
    ∀ x ∈ validStates 2 D, ∑ y ∈ validStates 2 D, pafsBinaryKernelG M k mhTiny h f lr mask s x y * φ y = 1 * φ x := by
  intro x hx
  have H := pafs_pathMH hD hk h f lr mask
  have e : ∀ y, pafsBinaryKernelG M k mhTiny h f lr mask s x y = _ := fun y =>
    (pafs_isMH k mhTiny h f lr mask s).lawG_eq hM mhTiny_pos (fun x => pafsIdxLaw (pafsLogProb h lr mask x)) x hx y
  simp only [e]
  rw [expect_mhKernel hx fun idx _ => gwgPropose_valid hx idx]
  refine Eq.trans (Finset.sum_congr rfl fun idx _ => ?_) ((Finset.sum_mul _ _ _).symm.trans (congrArg (· * φ x) (H.prob x hx).2))
  by_cases hq : pafsIdxLaw (pafsLogProb h lr mask x) idx = 0
  · rw [hq, zero_mul, zero_mul]
  · rw [hφ x hx idx (pafsIdxLaw_ne_zero hq)]; ring

/-- **C73 (PAFS, noise of the code).** Suppose no path has a ratio of `1e-24` or less.  Then the path-auxiliary sampler with
`k` flips per step forgets its start if and only if `k` is odd, `k` is less than the number of sites (or there is only one
site), and some path has ratio at most `1 - 1 / M + 1e-24`. -/
theorem pafs_forgets_iff (hD : 0 < D) {k : ℕ} (hk : k ≤ D) (h : ℝ → ℝ) (f : (Fin D → ℤ) → ℝ)
    (lr : (Fin D → ℤ) → Fin D → ℝ) (mask : Option (Fin D → ℝ)) (s : ℕ → LBState) {M : ℕ} (hM : 0 < M)
    (hacc : ∀ x ∈ validStates 2 D, ∀ idx : Fin k → Fin D, Function.Injective idx →
      mhTiny * (Real.exp (f x) * pafsIdxLaw (pafsLogProb h lr mask x) idx) <
        Real.exp (f (gwgPropose x idx)) * pafsIdxLaw (pafsLogProb h lr mask (gwgPropose x idx)) fun i => idx i.rev) :
    Forgets (validStates 2 D) (fun t => pafsBinaryKernelG M k mhTiny h f lr mask (s t)) ↔
      Odd k ∧ (k < D ∨ D = 1) ∧ ∃ x ∈ validStates 2 D, ∃ idx : Fin k → Fin D, Function.Injective idx ∧
        Real.exp (f (gwgPropose x idx)) *
            (pafsIdxLaw (pafsLogProb h lr mask (gwgPropose x idx)) fun i => idx i.rev) ≤
          (1 - 1 / M + mhTiny) * (Real.exp (f x) * pafsIdxLaw (pafsLogProb h lr mask x) idx) := by
  have hy : (fun j => if j = ⟨0, hD⟩ then 1 else 0 : Fin D → ℤ) ∈ validStates 2 D := by
    rw [mem_validStates_two]; intro j; split_ifs <;> simp
  have hcard : ∀ x ∈ validStates 2 D, ∀ idx : Fin k → Fin D, Function.Injective idx →
      (univ.filter fun j => gwgPropose x idx j ≠ x j).card = k := fun x hx idx hi =>
    pafs_flips (lp := fun _ => 0) (pafsIdxLaw_pos _ idx hi).ne' x hx
  by_cases hodd : Odd k
  swap
  · refine iff_of_false ?_ fun hh => hodd hh.1
    refine not_forgets_of_eigen (φ := signProd) (lam := 1) abs_one
      (fun t => pafs_keeps h f lr mask (s t) hM hD hk fun x hx idx hi => ?_) (fun y hy => (signProd_abs hy).le) zero_valid hy ?_
    · rw [signProd_diff hx (gwgPropose_valid hx idx), hcard x hx idx hi, (Nat.not_odd_iff_even.1 hodd).neg_one_pow, one_mul]
    · have hc : (univ.filter fun j => (if j = (⟨0, hD⟩ : Fin D) then (1 : ℤ) else 0) ≠ 0) = {⟨0, hD⟩} := by
        ext j; simp
      have := signProd_diff (zero_valid (D := D)) hy
      rw [hc, Finset.card_singleton, pow_one, neg_one_mul] at this
      have h1 := signProd_abs (zero_valid (D := D))
      intro hh
      have h2 : signProd (fun _ : Fin D => (0 : ℤ)) = 0 := by linarith
      rw [h2, abs_zero] at h1
      exact zero_ne_one h1
  by_cases hkD : k < D ∨ D = 1
  swap
  · refine iff_of_false ?_ fun hh => hkD hh.2.1
    push Not at hkD
    have hkD' : k = D := by omega
    subst hkD'
    refine not_forgets_of_eigen (φ := fun z => if (∀ j, z j = 0) ∨ ∀ j, z j = 1 then (1 : ℝ) else 0) (lam := 1) abs_one
      (fun t => pafs_keeps h f lr mask (s t) hM hD hk fun x hx idx hi => ?_)
      (fun y _ => by split_ifs <;> simp) zero_valid hy ?_
    · have hs := Finite.surjective_of_injective hi
      have hfl : ∀ j, gwgPropose x idx j = 1 - x j := fun j => if_pos (hs j)
      refine if_congr ?_ rfl rfl
      simp only [hfl]
      constructor
      · rintro (a | a)
        · right; intro j; have := a j; omega
        · left; intro j; have := a j; omega
      · rintro (a | a)
        · right; intro j; have := a j; omega
        · left; intro j; have := a j; omega
    · rw [if_pos (Or.inl fun _ => rfl), if_neg]
      · exact one_ne_zero
      · rintro (hh | hh)
        · simpa using hh ⟨0, hD⟩
        · have := hh ⟨1, by omega⟩
          simp at this
  rw [(pafs_pathMH hD hk h f lr mask).forgets_iff (K := fun t => pafsBinaryKernelG M k mhTiny h f lr mask (s t))
    ⟨_, zero_valid⟩ (fun x hx => signProd_abs hx) (fun x hx idx hq => ?_) (fun x hx y hy => ?_) hM mhTiny_pos
    (fun x hx idx hq => hacc x hx idx (pafsIdxLaw_ne_zero hq.ne')) (fun t => pafs_isMH k mhTiny h f lr mask (s t))
    fun t x _ y => rfl]
  · refine Iff.trans (exists_congr fun x => and_congr_right fun hx => exists_congr fun idx => ?_)
      ⟨fun hh => ⟨hodd, hkD, hh⟩, fun hh => hh.2.2⟩
    exact and_congr_left fun _ => ⟨fun hp => pafsIdxLaw_ne_zero hp.ne', pafsIdxLaw_pos _ idx⟩
  · rw [signProd_diff hx (gwgPropose_valid hx idx), pafs_flips hq x hx, hodd.neg_one_pow]; ring
  · have hmove : ∀ a ∈ validStates 2 D, ∀ b, (∃ A : Finset (Fin D), A.card = k ∧ b = flipSet a A) →
        ∃ idx : Fin k → Fin D, gwgPropose a idx = b ∧ 0 < pafsIdxLaw (pafsLogProb h lr mask a) idx := by
      rintro a ha _ ⟨A, hA, rfl⟩
      refine ⟨A.orderEmbOfFin hA, ?_, pafsIdxLaw_pos _ _ (A.orderEmbOfFin hA).injective⟩
      funext j
      unfold gwgPropose flipSet
      have : (∃ i, A.orderEmbOfFin hA i = j) ↔ j ∈ A := by
        have := Finset.range_orderEmbOfFin A hA
        rw [← Finset.mem_coe, ← this]; rfl
      simp only [this]
    rcases hkD with hlt | h1
    · obtain ⟨n, hn⟩ := flipSet_reach hodd hlt x hx y hy
      exact ⟨n, hn.mono hmove⟩
    · have hk1 : k = 1 := by have := hodd.pos; omega
      refine ⟨_, (Walk.sites mix_valid (fun a ha b hb => ?_) x hx y hy).mono hmove⟩
      rintro ⟨i, h3, h4⟩
      refine ⟨{i}, by simp [hk1], funext fun j => ?_⟩
      have ha' := mem_validStates_two.1 ha i
      have hb' := mem_validStates_two.1 hb i
      unfold flipSet
      by_cases hj : j = i
      · subst hj; rw [if_pos (mem_singleton_self _)]; omega
      · rw [if_neg (by simpa using hj), h4 j hj]

/-- **C73 (what is approached).** When the one-flip GWG chain forgets its start, its law approaches one stationary law
geometrically, the same for every start. -/
theorem gwg_one_limit (hD : 0 < D) (h : ℝ → ℝ) (f : (Fin D → ℤ) → ℝ) (g : (Fin D → ℤ) → Fin D → ℝ)
    (mask : Option (Fin D → ℝ)) (s : LBState) {M : ℕ} (hM : 0 < M)
    (hF : Forgets (validStates 2 D) (fun _ => gwgBinaryKernelG M 1 mhTiny h f g mask s)) :
    ∃ ν : (Fin D → ℤ) → ℝ, (∀ x ∈ validStates 2 D, 0 ≤ ν x) ∧ ∑ x ∈ validStates 2 D, ν x = 1 ∧
      Invariant (validStates 2 D) ν (gwgBinaryKernelG M 1 mhTiny h f g mask s) ∧
      ∃ m, 0 < m ∧ ∃ c : ℝ, 0 ≤ c ∧ c < 1 ∧ ∀ x ∈ validStates 2 D, ∀ n,
        l1 (validStates 2 D) (iterate (validStates 2 D) (fun _ => gwgBinaryKernelG M 1 mhTiny h f g mask s) n x) ν ≤
          2 * c ^ (n / m) := by
  refine hF.limit ⟨_, zero_valid⟩ (Stochastic.congr (L := mhKernel (gwgDrawLaw (k := 1) h g mask) gwgPropose
    fun x idx => acceptGrid M mhTiny (gwgLogAcc h f g mask x idx)) (fun x hx y => ?_) ?_)
  · exact (gwg_isMH 1 mhTiny h f g mask s).lawG_eq hM mhTiny_pos (gwgDrawLaw h g mask) x hx y
  · have H := gwg_pathMH hD 1 h f g mask
    exact stochastic_mhKernel H.prob H.closed (fun _ _ => acceptGrid_nonneg _ _ _) fun _ _ => acceptGrid_le_one _ _ _

/-- Instance for C73: on a flat model with the noise of the code the one-flip chain never forgets its start. -/
example (s : ℕ → LBState) : ¬ Forgets (validStates 2 3)
    (fun t => gwgBinaryKernelG noiseSize 1 mhTiny (fun r => r / 2) (fun _ => 0) (fun _ _ => 0) none (s t)) := by
  have e : ∀ x : Fin 3 → ℤ, gwgDist (fun r => r / 2) none x (fun _ => 0) =
      gwgDist (fun r => r / 2) none (fun _ => 0) (fun _ => 0) := by
    intro x; unfold gwgDist; simp
  have hp := fun i => softmax_pos (gwgDist (fun r => r / 2) none (fun _ : Fin 3 => 0) (fun _ => 0)) i
  rw [gwg_one_forgets_iff (by norm_num) (fun r => r / 2) (fun _ => 0) (fun _ _ => 0) none s (by norm_num [noiseSize])]
  · rintro ⟨x, -, i, hle⟩
    rw [e x, e (Function.update _ _ _), Real.exp_zero, one_mul] at hle
    have := hp i
    have h2 : (1 : ℝ) - 1 / (noiseSize : ℕ) + mhTiny < 1 := by norm_num [noiseSize, mhTiny]
    nlinarith
  · intro x _ i
    rw [e x, e (Function.update _ _ _), Real.exp_zero, one_mul]
    have := hp i
    have h2 : mhTiny < 1 := by norm_num [mhTiny]
    nlinarith

/-- With weight two for a one at site `0` it does. -/
example (s : ℕ → LBState) : Forgets (validStates 2 3)
    (fun t => gwgBinaryKernelG noiseSize 1 mhTiny (fun r => r / 2) (fun x => Real.log 2 * x 0) (fun _ _ => 0) none (s t)) := by
  have e : ∀ x : Fin 3 → ℤ, gwgDist (fun r => r / 2) none x (fun _ => 0) =
      gwgDist (fun r => r / 2) none (fun _ => 0) (fun _ => 0) := by
    intro x; unfold gwgDist; simp
  have hp := fun i => softmax_pos (gwgDist (fun r => r / 2) none (fun _ : Fin 3 => 0) (fun _ => 0)) i
  have h2 : Real.exp (Real.log 2) = 2 := Real.exp_log (by norm_num)
  rw [gwg_one_forgets_iff (by norm_num) (fun r => r / 2) (fun x => Real.log 2 * x 0) (fun _ _ => 0) none s
    (by norm_num [noiseSize])]
  · refine ⟨fun _ => 1, by rw [mem_validStates_two]; intro j; right; rfl, 0, ?_⟩
    rw [e (fun _ => 1), e (Function.update _ _ _)]
    have := hp 0
    simp [h2]
    have h3 : (1 : ℝ) ≤ (1 - 1 / (noiseSize : ℕ) + mhTiny) * 2 := by norm_num [noiseSize, mhTiny]
    have h4 : (1 : ℝ) - 1 / (noiseSize : ℕ) + mhTiny = 1 - ((noiseSize : ℕ) : ℝ)⁻¹ + mhTiny := by rw [one_div]
    rw [h4] at h3
    nlinarith
  · intro x hx i
    rw [e x, e (Function.update _ _ _)]
    have := hp i
    have hb : ∀ z ∈ validStates 2 3, 1 ≤ Real.exp (Real.log 2 * (z 0 : ℤ)) ∧ Real.exp (Real.log 2 * (z 0 : ℤ)) ≤ 2 := by
      intro z hz
      rcases mem_validStates_two.1 hz 0 with h0 | h0 <;> rw [h0] <;> simp [h2]
    have hu : Function.update x i (1 - x i) ∈ validStates 2 3 := by
      rw [← gwgPropose_one]; exact gwgPropose_valid hx _
    have h5 := (hb x hx).2
    have h6 := (hb _ hu).1
    have h7 : mhTiny * 2 < 1 := by norm_num [mhTiny]
    have h8 : mhTiny * Real.exp (Real.log 2 * (x 0 : ℤ)) < Real.exp (Real.log 2 * (Function.update x i (1 - x i) 0 : ℤ)) := by
      have := mhTiny_pos
      nlinarith
    nlinarith

end Discs
