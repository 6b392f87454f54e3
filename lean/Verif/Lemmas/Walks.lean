import Verif.Lemmas.Doeblin

/-!
# Convergence from walks: when several steps are needed to reach every state
-/

namespace Discs.Spec

open Finset

variable {X Ω : Type*}

/-- There is a walk of exactly `n` moves of `R` from `x` to `y`, all of its intermediate states in `S`. -/
def Walk (S : Finset X) (R : X → X → Prop) : ℕ → X → X → Prop
  | 0 => fun x y => x = y
  | n + 1 => fun x y => ∃ z ∈ S, Walk S R n x z ∧ R z y

theorem Walk.single {S : Finset X} {R : X → X → Prop} {x y : X} (hx : x ∈ S) (h : R x y) :
    Walk S R 1 x y := ⟨x, hx, rfl, h⟩

theorem Walk.snoc {S : Finset X} {R : X → X → Prop} {n : ℕ} {x y z : X} (h : Walk S R n x y) (hy : y ∈ S)
    (hz : R y z) : Walk S R (n + 1) x z := ⟨y, hy, h, hz⟩

theorem Walk.trans {S : Finset X} {R : X → X → Prop} {a b : ℕ} {x y z : X} (h : Walk S R a x y)
    (h2 : Walk S R b y z) : Walk S R (a + b) x z := by
  induction b generalizing z with
  | zero => cases h2; exact h
  | succ b ih => obtain ⟨w, hw, h3, h4⟩ := h2; exact ⟨w, hw, ih h3, h4⟩

/-- Closed walks of two and of three moves give closed walks of every length from two on. -/
theorem Walk.loop {S : Finset X} {R : X → X → Prop} {x : X} (h2 : Walk S R 2 x x)
    (h3 : Walk S R 3 x x) : ∀ n, 2 ≤ n → Walk S R n x x := by
  intro n
  induction n using Nat.strong_induction_on with
  | _ n ih =>
    intro hn
    rcases (by omega : n = 2 ∨ n = 3 ∨ 2 ≤ n - 2) with rfl | rfl | h
    · exact h2
    · exact h3
    · have := (ih (n - 2) (by omega) h).trans h2
      rwa [Nat.sub_add_cancel hn] at this

/-- States that differ in `d` sites are joined by a walk of `d` moves that each change one site. -/
theorem Walk.sites {D : ℕ} {V : Type*} [DecidableEq V] {S : Finset (Fin D → V)}
    {R : (Fin D → V) → (Fin D → V) → Prop}
    (hmix : ∀ x ∈ S, ∀ y ∈ S, ∀ z : Fin D → V, (∀ j, z j = x j ∨ z j = y j) → z ∈ S)
    (hR : ∀ x ∈ S, ∀ y ∈ S, (∃ i, y i ≠ x i ∧ ∀ j, j ≠ i → y j = x j) → R x y) :
    ∀ x ∈ S, ∀ y ∈ S, Walk S R (univ.filter fun j => y j ≠ x j).card x y := by
  intro x hx y hy
  induction hn : (univ.filter fun j => y j ≠ x j).card generalizing y with
  | zero =>
    rw [Finset.card_eq_zero, Finset.filter_eq_empty_iff] at hn
    exact (funext fun j => not_not.1 (hn (mem_univ j))).symm
  | succ n ih =>
    have hpos : 0 < (univ.filter fun j => y j ≠ x j).card := by omega
    obtain ⟨i, hi⟩ := Finset.card_pos.1 hpos
    rw [Finset.mem_filter] at hi
    let z : Fin D → V := fun j => if j = i then x j else y j
    have hz : z ∈ S := hmix x hx y hy z fun j => by dsimp only [z]; split_ifs; exacts [Or.inl rfl, Or.inr rfl]
    have hc : (univ.filter fun j => z j ≠ x j) = (univ.filter fun j => y j ≠ x j).erase i := by
      ext j
      by_cases hj : j = i <;> simp [z, hj]
    refine ⟨z, hz, ih z hz ?_, hR z hz y hy ⟨i, ?_, fun j hj => ?_⟩⟩
    · rw [hc, Finset.card_erase_of_mem (by simp [hi.2]), hn]; rfl
    · simpa [z] using hi.2
    · simp [z, hj]

/-- The probability of a run is at least the product of the floors along a walk. -/
theorem iterate_ge_of_walk [DecidableEq X] {S : Finset X} {R : X → X → Prop} {K : ℕ → X → X → ℝ} {a : ℝ}
    (ha : 0 ≤ a) (hK : ∀ t, Stochastic S (K t)) (h : ∀ t, ∀ x ∈ S, ∀ y ∈ S, R x y → a ≤ K t x y)
    {n : ℕ} {x y : X} (hx : x ∈ S) (hy : y ∈ S) (hw : Walk S R n x y) : a ^ n ≤ iterate S K n x y := by
  induction n generalizing y with
  | zero => cases hw; simp [iterate]
  | succ n ih =>
    obtain ⟨z, hz, h1, h2⟩ := hw
    have hs := stochastic_iterate hK n
    refine le_trans ?_ (Finset.single_le_sum (f := fun w => iterate S K n x w * K n w y)
      (fun w hw => mul_nonneg (hs.1 x hx w) ((hK n).1 w hw _)) hz)
    rw [pow_succ]
    exact mul_le_mul (ih hz h1) (h n z hz y hy h2) ha (hs.1 x hx z)

/-- An ideal Metropolis–Hastings kernel moves with positive probability along any possible draw. -/
theorem mhKernel_pos [Fintype Ω] [DecidableEq X] {q : X → Ω → ℝ} {move : X → Ω → X}
    {lacc : X → Ω → ℝ} {x y : X} (hq : ∀ ω, 0 ≤ q x ω) {ω : Ω} (hm : move x ω = y) (h : 0 < q x ω) :
    0 < mhKernel q move (fun x ω => acceptProb 0 (lacc x ω)) x y := by
  have h0 : 0 < acceptProb 0 (lacc x ω) := by
    rw [acceptProb_zero]; exact lt_min one_pos (Real.exp_pos _)
  refine lt_of_lt_of_le (mul_pos h h0) ?_
  refine le_trans ?_ (Finset.single_le_sum (f := fun ω' => q x ω' *
    ((if move x ω' = y then acceptProb 0 (lacc x ω') else 0) +
      (if x = y then 1 - acceptProb 0 (lacc x ω') else 0))) (fun ω' _ => ?_) (mem_univ ω))
  · refine mul_le_mul_of_nonneg_left ?_ (hq ω)
    rw [if_pos hm]
    have := acceptProb_le_one 0 (lacc x ω)
    split_ifs <;> linarith
  · have := acceptProb_nonneg 0 (lacc x ω')
    have := acceptProb_le_one 0 (lacc x ω')
    refine mul_nonneg (hq ω') (add_nonneg ?_ ?_) <;> split_ifs <;> linarith

/-- A run of Metropolis–Hastings steps taken from finitely many kernels (`κ t` is the one in use at time
`t`) converges if, along a relation `R` whose moves all of them can make, every state can be reached
from every state in exactly `m` moves. -/
theorem PathMH.converges_walk {ι : Type*} [Fintype ι] {Ω : ι → Type*} [∀ i, Fintype (Ω i)] [DecidableEq X]
    {S : Finset X} {π : X → ℝ} {q : (i : ι) → X → Ω i → ℝ} {move : (i : ι) → X → Ω i → X}
    {rev : (i : ι) → X → Ω i → Ω i} {lacc : (i : ι) → X → Ω i → ℝ}
    (H : ∀ i, PathMH S π (q i) (move i) (rev i) (lacc i)) {R : X → X → Prop}
    (hR : ∀ i, ∀ x ∈ S, ∀ y ∈ S, R x y → ∃ ω, move i x ω = y ∧ 0 < q i x ω)
    {m : ℕ} (hm : 0 < m) (hw : ∀ x ∈ S, ∀ y ∈ S, Walk S R m x y) :
    ∃ a, 0 < a ∧ a ≤ 1 ∧ ∀ (tiny : ℝ), 0 ≤ tiny → ∀ (κ : ℕ → ι) (stepf : (t : ℕ) → X → Ω (κ t) → ℝ → X),
      (∀ t, IsMHStep S tiny (move (κ t)) (lacc (κ t)) (stepf t)) → ∀ K : ℕ → X → X → ℝ,
      (∀ t, ∀ x ∈ S, ∀ y, K t x y = lawU (q (κ t) x) (stepf t x) y) →
        ConvergesWithin S π K m (1 - a ^ m) (m * (2 * tiny) / a ^ m) := by
  classical
  let L : ι → X → X → ℝ := fun i => mhKernel (q i) (move i) fun x ω => acceptProb 0 (lacc i x ω)
  have hA0 : ∀ tiny i x ω, 0 ≤ acceptProb tiny (lacc i x ω) := fun _ _ _ _ => acceptProb_nonneg _ _
  have hA1 : ∀ tiny i x ω, acceptProb tiny (lacc i x ω) ≤ 1 := fun _ _ _ _ => acceptProb_le_one _ _
  have hLs : ∀ i, Stochastic S (L i) := fun i =>
    stochastic_mhKernel (H i).prob (H i).closed (hA0 0 i) (hA1 0 i)
  obtain ⟨a, ha, ha1, hfl⟩ : ∃ a, 0 < a ∧ a ≤ 1 ∧ ∀ i, ∀ x ∈ S, ∀ y ∈ S, R x y → a ≤ L i x y := by
    let T := ((univ : Finset ι) ×ˢ S ×ˢ S).filter fun p => R p.2.1 p.2.2
    rcases T.eq_empty_or_nonempty with he | hne
    · refine ⟨1, one_pos, le_rfl, fun i x hx y hy hxy => ?_⟩
      have : (i, x, y) ∈ T := by simp [T, hx, hy, hxy]
      rw [he] at this
      exact absurd this (Finset.notMem_empty _)
    · obtain ⟨p, hp, hmin⟩ := Finset.exists_min_image T (fun p => L p.1 p.2.1 p.2.2) hne
      simp only [T, mem_filter, mem_product, mem_univ, true_and] at hp
      obtain ⟨ω, hω, hq⟩ := hR p.1 _ hp.1.1 _ hp.1.2 hp.2
      refine ⟨min 1 (L p.1 p.2.1 p.2.2), lt_min one_pos
        (mhKernel_pos ((H p.1).prob _ hp.1.1).1 hω hq), min_le_left _ _, fun i x hx y hy hxy => ?_⟩
      exact (min_le_right _ _).trans (hmin (i, x, y) (by simp [T, hx, hy, hxy]))
  refine ⟨a, ha, ha1, fun tiny ht κ stepf h K hK => ?_⟩
  intro x₀ hx₀
  have hπ := (H (κ 0)).pi_pos
  have hZ : 0 < ∑ x ∈ S, π x := Finset.sum_pos hπ ⟨x₀, hx₀⟩
  have hKeq : ∀ t, ∀ x ∈ S, ∀ y, K t x y =
      mhKernel (q (κ t)) (move (κ t)) (fun x ω => acceptProb tiny (lacc (κ t) x ω)) x y :=
    fun t x hx y => (hK t x hx y).trans ((h t).lawU_eq ht (q (κ t)) x hx y)
  have hKs : ∀ t, Stochastic S (K t) := fun t => Stochastic.congr (hKeq t)
    (stochastic_mhKernel (H _).prob (H _).closed (hA0 tiny _) (hA1 tiny _))
  refine convergesWithin_of_minor (K := K) (L := fun t => L (κ t)) (ρ := 2 * tiny) (δ := a ^ m) hm hπ hKs
    (fun t => hLs _) (fun t => invariant_of_reversible (H _).reversible (hLs _)) (by positivity)
    (fun t x hx => ?_) (pow_pos ha m) (pow_le_one₀ ha.le ha1) (fun _ => target S π)
    (fun _ => sum_target hZ) (fun t x hx y hy => ?_) x₀ hx₀
  · rw [Finset.sum_congr rfl fun y _ => by rw [hKeq t x hx y]]
    exact mhKernel_tiny_close ht x ((H _).prob x hx)
  · have h1 := iterate_ge_of_walk (K := fun i => L (κ (t + i))) ha.le (fun i => hLs _)
      (fun i => hfl (κ (t + i))) hx hy (hw x hx y hy)
    have h2 : target S π y ≤ 1 := by
      unfold target
      rw [div_le_one hZ]
      exact Finset.single_le_sum (fun y hy => (hπ y hy).le) hy
    exact (mul_le_of_le_one_right (pow_pos ha m).le h2).trans h1

end Discs.Spec
