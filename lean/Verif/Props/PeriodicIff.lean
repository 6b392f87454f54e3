import Verif.Lemmas.Irreducible
import Verif.Props.Convergence

/-!
# Property C73, both directions: exactly when a sampler with a fixed number of flips converges

The number of flips per step decides which states can be reached, and whether anything is ever rejected
decides whether the run stops alternating between the two parities.
-/

namespace Discs.Spec

open Finset

variable {X : Type*}

/-- A run that cannot leave a part of the state space does not converge. -/
theorem not_ergodic_of_closed [DecidableEq X] {S : Finset X} {π : X → ℝ} {K : ℕ → X → X → ℝ}
    (hπ : ∀ x ∈ S, 0 < π x) {T : X → Prop} (hT : ∀ t, ∀ z ∈ S, T z → ∀ w ∈ S, ¬ T w → K t z w = 0)
    {x y : X} (hx : x ∈ S) (hTx : T x) (hy : y ∈ S) (hTy : ¬ T y) : ¬ Ergodic S π K := by
  have key : ∀ n, ∀ w ∈ S, ¬ T w → iterate S K n x w = 0 := by
    intro n
    induction n with
    | zero => intro w _ hne; exact if_neg fun hh : x = w => hne (hh ▸ hTx)
    | succ n ih =>
      intro w hw hne
      refine Finset.sum_eq_zero fun z hz => ?_
      by_cases hz' : T z
      · rw [hT n z hz hz' w hw hne, mul_zero]
      · rw [ih z hz hz', zero_mul]
  have hZ : 0 < ∑ x ∈ S, π x := Finset.sum_pos hπ ⟨x, hx⟩
  refine not_ergodic_of_l1 hx (δ := target S π y) (div_pos (hπ y hy) hZ) fun n => ?_
  refine le_trans ?_ (Finset.single_le_sum (f := fun y => |iterate S K n x y - target S π y|)
    (fun _ _ => abs_nonneg _) hy)
  rw [key n y hy hTy, zero_sub, abs_neg]
  exact le_abs_self _

end Discs.Spec

namespace Discs

open Finset Spec

variable {D : ℕ}

/-- The row with the sites in `A` flipped. -/
def flipSet (x : Fin D → ℤ) (A : Finset (Fin D)) : Fin D → ℤ := fun j => if j ∈ A then 1 - x j else x j

theorem flipSet_valid {x : Fin D → ℤ} (hx : x ∈ validStates 2 D) (A : Finset (Fin D)) :
    flipSet x A ∈ validStates 2 D := by
  rw [mem_validStates_two] at *
  intro j
  have := hx j
  unfold flipSet
  split_ifs <;> omega

theorem flipSet_flipSet (x : Fin D → ℤ) (A B : Finset (Fin D)) :
    flipSet (flipSet x A) B = flipSet x (symmDiff A B) := by
  funext j
  by_cases h1 : j ∈ A <;> by_cases h2 : j ∈ B <;> simp [flipSet, Finset.mem_symmDiff, h1, h2]

theorem flipSet_diff {x y : Fin D → ℤ} (hx : x ∈ validStates 2 D) (hy : y ∈ validStates 2 D) :
    flipSet x (univ.filter fun j => y j ≠ x j) = y := by
  funext j
  have h1 := mem_validStates_two.1 hx j
  have h2 := mem_validStates_two.1 hy j
  unfold flipSet
  simp only [mem_filter, mem_univ, true_and]
  split_ifs <;> omega

/-- With an odd number `k < D` of distinct flips per move, every row can be reached from every row. -/
theorem flipSet_reach {k : ℕ} (hodd : Odd k) (hk : k < D) :
    ∀ x ∈ validStates 2 D, ∀ y ∈ validStates 2 D,
      ∃ n, Walk (validStates 2 D) (fun a b => ∃ A : Finset (Fin D), A.card = k ∧ b = flipSet a A) n x y := by
  have htrans : ∀ {x y z : Fin D → ℤ},
      (∃ n, Walk (validStates 2 D) (fun a b => ∃ A : Finset (Fin D), A.card = k ∧ b = flipSet a A) n x y) →
      (∃ n, Walk (validStates 2 D) (fun a b => ∃ A : Finset (Fin D), A.card = k ∧ b = flipSet a A) n y z) →
      ∃ n, Walk (validStates 2 D) (fun a b => ∃ A : Finset (Fin D), A.card = k ∧ b = flipSet a A) n x z := by
    rintro x y z ⟨a, ha⟩ ⟨b, hb⟩
    exact ⟨a + b, ha.trans hb⟩
  have hpair : ∀ x ∈ validStates 2 D, ∀ a b : Fin D, a ≠ b → ∃ n, Walk (validStates 2 D)
      (fun a b => ∃ A : Finset (Fin D), A.card = k ∧ b = flipSet a A) n x (flipSet x {a, b}) := by
    intro x hx a b hab
    obtain ⟨B, hB, hcard⟩ := Finset.exists_subset_card_eq (s := (univ.erase a).erase b) (n := k - 1) (by
      rw [Finset.card_erase_of_mem (by simp [hab.symm]), Finset.card_erase_of_mem (mem_univ _),
        Finset.card_univ, Fintype.card_fin]; omega)
    have haB : a ∉ B := fun h => by simpa using hB h
    have hbB : b ∉ B := fun h => by simpa using hB h
    have hk1 : 0 < k := hodd.pos
    refine ⟨2, flipSet x (insert a B), flipSet_valid hx _,
      Walk.single hx ⟨insert a B, by rw [Finset.card_insert_of_notMem haB, hcard]; omega, rfl⟩,
      insert b B, by rw [Finset.card_insert_of_notMem hbB, hcard]; omega, ?_⟩
    rw [flipSet_flipSet]
    congr 1
    ext j
    simp only [mem_symmDiff, mem_insert, mem_singleton]
    by_cases h1 : j = a
    · subst h1; simp [haB, hab]
    · by_cases h2 : j = b
      · subst h2; simp [hbB, hab.symm]
      · simp [h1, h2]
  have heven : ∀ (n : ℕ) (T : Finset (Fin D)), T.card = 2 * n → ∀ x ∈ validStates 2 D,
      ∃ n, Walk (validStates 2 D)
        (fun a b => ∃ A : Finset (Fin D), A.card = k ∧ b = flipSet a A) n x (flipSet x T) := by
    intro n
    induction n with
    | zero =>
      intro T hT x _
      have : T = ∅ := by simpa using hT
      exact ⟨0, by rw [this]; funext j; simp [flipSet]⟩
    | succ n ih =>
      intro T hT x hx
      obtain ⟨a, ha⟩ := Finset.card_pos.1 (show 0 < T.card by omega)
      obtain ⟨b, hb⟩ := Finset.card_pos.1 (show 0 < (T.erase a).card by
        rw [Finset.card_erase_of_mem ha]; omega)
      have hab : a ≠ b := fun e => by subst e; simp at hb
      have hbT : b ∈ T := Finset.mem_of_mem_erase hb
      have h1 := hpair x hx a b hab
      have h2 := ih ((T.erase a).erase b) (by
        rw [Finset.card_erase_of_mem hb, Finset.card_erase_of_mem ha]; omega) _ (flipSet_valid hx {a, b})
      rw [flipSet_flipSet] at h2
      have e : symmDiff {a, b} ((T.erase a).erase b) = T := by
        ext j
        simp only [mem_symmDiff, mem_insert, mem_singleton, mem_erase]
        by_cases h1 : j = a
        · subst h1; simp [ha]
        · by_cases h2 : j = b
          · subst h2; simp [hbT]
          · simp [h1, h2]
      rw [e] at h2
      exact htrans h1 h2
  intro x hx y hy
  rw [← flipSet_diff hx hy]
  generalize (univ.filter fun j => y j ≠ x j) = T
  rcases Nat.even_or_odd' T.card with ⟨c, hc | hc⟩
  · exact heven c T hc x hx
  · obtain ⟨A, -, hA⟩ := Finset.exists_subset_card_eq (s := (univ : Finset (Fin D))) (n := k)
      (by rw [Finset.card_univ, Fintype.card_fin]; omega)
    have hev : Even (symmDiff A T).card := by
      have h1 : (symmDiff A T).card = (A \ T).card + (T \ A).card :=
        Finset.card_union_of_disjoint disjoint_sdiff_sdiff
      have h2 := Finset.card_sdiff_add_card_inter A T
      have h3 := Finset.card_sdiff_add_card_inter T A
      rw [Finset.inter_comm] at h3
      obtain ⟨d, hd⟩ := hodd
      exact Nat.even_iff.2 (by omega)
    obtain ⟨c', hc'⟩ := hev
    have h1 : ∃ n, Walk (validStates 2 D)
        (fun a b => ∃ A : Finset (Fin D), A.card = k ∧ b = flipSet a A) n x (flipSet x A) :=
      ⟨1, Walk.single hx ⟨A, hA, rfl⟩⟩
    have h2 := heven c' (symmDiff A T) (by omega) _ (flipSet_valid hx A)
    rw [flipSet_flipSet, symmDiff_symmDiff_cancel_left] at h2
    exact htrans h1 h2

theorem gwgPropose_one (x : Fin D → ℤ) (i : Fin D) :
    gwgPropose x (fun _ : Fin 1 => i) = Function.update x i (1 - x i) := by
  funext j
  unfold gwgPropose
  by_cases h : i = j
  · subst h; simp
  · rw [if_neg (by simpa using h), Function.update_of_ne (Ne.symm h)]

/-- **C73 (GWG, one flip, both directions).** With an ideal acceptance test the one-flip GWG chain
converges if and only if some flip of some state is not already balanced, that is, if the probability of
the state times the probability of proposing the flip ever differs from the same product for the way
back.  Otherwise nothing is ever rejected and the chain alternates between the two parities for ever. -/
theorem gwg_one_ergodic_iff (hD : 0 < D) (h : ℝ → ℝ) (f : (Fin D → ℤ) → ℝ)
    (g : (Fin D → ℤ) → Fin D → ℝ) (mask : Option (Fin D → ℝ)) (s : ℕ → LBState) :
    Ergodic (validStates 2 D) (fun x => Real.exp (f x)) (fun t => gwgBinaryKernel 1 0 h f g mask (s t)) ↔
      ∃ x ∈ validStates 2 D, ∃ i,
        Real.exp (f x) * softmax (gwgDist h mask x (g x)) i ≠
          Real.exp (f (Function.update x i (1 - x i))) *
            softmax (gwgDist h mask (Function.update x i (1 - x i))
              (g (Function.update x i (1 - x i)))) i := by
  have : Nonempty (Fin D) := ⟨⟨0, hD⟩⟩
  have hcard : ∀ x ∈ validStates 2 D, ∀ idx : Fin 1 → Fin D,
      signProd (gwgPropose x idx) = - signProd x := by
    intro x hx idx
    have : (univ.filter fun j => gwgPropose x idx j ≠ x j) = {idx 0} := by
      ext j
      have h1 := mem_validStates_two.1 hx j
      simp only [mem_filter, mem_univ, true_and, mem_singleton, gwgPropose, Fin.exists_fin_one]
      constructor
      · intro hne; by_contra hcon; exact hne (if_neg fun hh => hcon hh.symm)
      · intro hj; rw [if_pos hj.symm]; omega
    rw [signProd_diff hx (gwgPropose_valid hx idx), this, Finset.card_singleton]; ring
  have hlaw : ∀ x (i : Fin D), gwgDrawLaw (k := 1) h g mask x (fun _ => i) =
      softmax (gwgDist h mask x (g x)) i := fun x i => by simp [gwgDrawLaw]
  rw [(gwg_pathMH hD 1 h f g mask).ergodic_iff
    (K := fun t => gwgBinaryKernel 1 0 h f g mask (s t)) ⟨fun _ => 0, by rw [mem_validStates_two]; intro j; left; rfl⟩
    (fun x hx => signProd_abs hx) (fun x hx idx _ => hcard x hx idx) (fun x hx y hy => ?_)
    (fun t => gwg_isMH 1 0 h f g mask (s t)) fun t x _ y => rfl]
  · refine exists_congr fun x => and_congr_right fun hx => ⟨?_, ?_⟩
    · rintro ⟨idx, -, hne⟩
      obtain ⟨i, rfl⟩ : ∃ i, idx = fun _ => i := ⟨idx 0, funext fun i => by rw [Subsingleton.elim i 0]⟩
      refine ⟨i, ?_⟩
      rwa [gwgPropose_one, hlaw, hlaw] at hne
    · rintro ⟨i, hne⟩
      refine ⟨fun _ => i, by rw [hlaw]; exact softmax_pos _ _, ?_⟩
      rwa [gwgPropose_one, hlaw, hlaw]
  · refine ⟨_, Walk.sites mix_valid (fun a ha b hb => ?_) x hx y hy⟩
    rintro ⟨i, h1, h2⟩
    refine ⟨fun _ => i, ?_, by rw [hlaw]; exact softmax_pos _ _⟩
    rw [gwgPropose_one]
    have ha' := mem_validStates_two.1 ha i
    have hb' := mem_validStates_two.1 hb i
    funext j
    by_cases hj : j = i
    · subst hj; rw [Function.update_self]; omega
    · rw [Function.update_of_ne hj, h2 j hj]

/-- **C73 (PAFS, both directions).** With an ideal acceptance test, the path-auxiliary sampler with `k`
flips per step converges if and only if `k` is odd, `k` is less than the number of sites (or there is
only one site), and some path of some state is not already balanced. -/
theorem pafs_ergodic_iff (hD : 0 < D) {k : ℕ} (hk : k ≤ D) (h : ℝ → ℝ) (f : (Fin D → ℤ) → ℝ)
    (lr : (Fin D → ℤ) → Fin D → ℝ) (mask : Option (Fin D → ℝ)) (s : ℕ → LBState) :
    Ergodic (validStates 2 D) (fun x => Real.exp (f x))
      (fun t => pafsBinaryKernel k 0 h f lr mask (s t)) ↔
      Odd k ∧ (k < D ∨ D = 1) ∧ ∃ x ∈ validStates 2 D, ∃ idx : Fin k → Fin D, Function.Injective idx ∧
        Real.exp (f x) * pafsIdxLaw (pafsLogProb h lr mask x) idx ≠
          Real.exp (f (gwgPropose x idx)) *
            pafsIdxLaw (pafsLogProb h lr mask (gwgPropose x idx)) fun i => idx i.rev := by
  have hpos : ∀ (lp : Fin D → ℝ) (idx : Fin k → Fin D), Function.Injective idx → 0 < pafsIdxLaw lp idx := by
    intro lp idx hi
    refine lt_of_le_of_ne (seqDraw_nonneg (fun _ => (Real.exp_pos _).le) _ _) (Ne.symm ?_)
    exact (seqDraw_ne_zero_iff (fun i => Real.exp_pos _) _ _).2
      ⟨List.nodup_ofFn.2 hi, fun _ _ => Finset.notMem_empty _⟩
  by_cases hodd : Odd k
  swap
  · exact iff_of_false (pafs_even_not_ergodic hD (Nat.not_odd_iff_even.1 hodd) le_rfl h f lr mask s)
      fun hh => hodd hh.1
  by_cases hkD : k < D ∨ D = 1
  swap
  · refine iff_of_false ?_ fun hh => hkD hh.2.1
    push Not at hkD
    have hkD' : k = D := by omega
    subst hkD'
    let x : Fin k → ℤ := fun _ => 0
    let y : Fin k → ℤ := fun j => if j = ⟨0, hD⟩ then 1 else 0
    have hx : x ∈ validStates 2 k := by rw [mem_validStates_two]; intro j; left; rfl
    have hy : y ∈ validStates 2 k := by
      rw [mem_validStates_two]; intro j; dsimp only [y]; split_ifs <;> simp
    refine not_ergodic_of_closed (T := fun z => (∀ j, z j = 0) ∨ ∀ j, z j = 1)
      (fun _ _ => Real.exp_pos _) (fun t z hz hT w hw hTw => ?_) hx (Or.inl fun _ => rfl) hy ?_
    · have e := (pafs_isMH k 0 h f lr mask (s t)).lawU_eq le_rfl
        (fun x => pafsIdxLaw (pafsLogProb h lr mask x)) z hz w
      refine e.trans (Finset.sum_eq_zero fun idx _ => ?_)
      beta_reduce
      by_cases hq : pafsIdxLaw (pafsLogProb h lr mask z) idx = 0
      · rw [hq, zero_mul]
      · have hs := Finite.surjective_of_injective (pafsIdxLaw_ne_zero hq)
        have hfl : ∀ j, gwgPropose z idx j = 1 - z j := fun j => if_pos (hs j)
        have h1 : gwgPropose z idx ≠ w := by
          rintro rfl
          refine hTw (hT.symm.imp (fun a j => ?_) fun a j => ?_) <;> rw [hfl, a] <;> norm_num
        have h2 : z ≠ w := fun hh => hTw (hh ▸ hT)
        rw [if_neg h1, if_neg h2, add_zero, mul_zero]
    · rintro (hh | hh)
      · simpa [y] using hh ⟨0, hD⟩
      · have := hh ⟨1, by omega⟩
        simp [y] at this
  have hflip : ∀ x ∈ validStates 2 D, ∀ idx : Fin k → Fin D,
      pafsIdxLaw (pafsLogProb h lr mask x) idx ≠ 0 → signProd (gwgPropose x idx) = - signProd x := by
    intro x hx idx hq
    rw [signProd_diff hx (gwgPropose_valid hx idx), pafs_flips hq x hx, hodd.neg_one_pow]; ring
  rw [(pafs_pathMH hD hk h f lr mask).ergodic_iff
    (K := fun t => pafsBinaryKernel k 0 h f lr mask (s t))
    ⟨fun _ => 0, by rw [mem_validStates_two]; intro j; left; rfl⟩
    (fun x hx => signProd_abs hx) hflip (fun x hx y hy => ?_)
    (fun t => pafs_isMH k 0 h f lr mask (s t)) fun t x _ y => rfl]
  · refine Iff.trans (exists_congr fun x => and_congr_right fun hx => exists_congr fun idx => ?_)
      ⟨fun hh => ⟨hodd, hkD, hh⟩, fun hh => hh.2.2⟩
    refine and_congr_left fun _ => ⟨fun hp => pafsIdxLaw_ne_zero hp.ne', hpos _ idx⟩
  · have hmove : ∀ a ∈ validStates 2 D, ∀ b, (∃ A : Finset (Fin D), A.card = k ∧ b = flipSet a A) →
        ∃ idx : Fin k → Fin D, gwgPropose a idx = b ∧ 0 < pafsIdxLaw (pafsLogProb h lr mask a) idx := by
      rintro a ha _ ⟨A, hA, rfl⟩
      refine ⟨A.orderEmbOfFin hA, ?_, hpos _ _ (A.orderEmbOfFin hA).injective⟩
      funext j
      unfold gwgPropose flipSet
      have : (∃ i, A.orderEmbOfFin hA i = j) ↔ j ∈ A := by
        have := Finset.range_orderEmbOfFin A hA
        rw [← Finset.mem_coe, ← this]; rfl
      simp only [this]
    rcases hkD with hlt | h1
    · obtain ⟨n, hn⟩ := flipSet_reach hodd hlt x hx y hy
      exact ⟨n, hn.mono hmove⟩
    · have hk1 : k = 1 := by have := hodd.pos; omega
      refine ⟨_, (Walk.sites mix_valid (fun a ha b hb => ?_) x hx y hy).mono hmove⟩
      rintro ⟨i, h3, h4⟩
      refine ⟨{i}, by simp [hk1], funext fun j => ?_⟩
      have ha' := mem_validStates_two.1 ha i
      have hb' := mem_validStates_two.1 hb i
      unfold flipSet
      by_cases hj : j = i
      · subst hj; rw [if_pos (mem_singleton_self _)]; omega
      · rw [if_neg (by simpa using hj), h4 j hj]

/-- The law of the indices when every site has the same score. -/
theorem pafsIdxLaw_const (hD : 0 < D) {k : ℕ} (h : ℝ → ℝ) (c : ℝ) (x y : Fin D → ℤ)
    {idx idx' : Fin k → Fin D} (hi : Function.Injective idx) (hi' : Function.Injective idx') :
    pafsIdxLaw (pafsLogProb h (fun _ _ => c) none x) idx =
      pafsIdxLaw (pafsLogProb h (fun _ _ => c) none y) idx' := by
  rw [pafsIdxLaw_prod (sum_exp_pafsLogProb hD h _ none x) hi,
    pafsIdxLaw_prod (sum_exp_pafsLogProb hD h _ none y) hi']
  have e : ∀ (z : Fin D → ℤ) (j j' : Fin D), pafsLogProb h (fun _ _ => c) none z j = pafsLogProb h (fun _ _ => c) none y j' := by
    intro z j j'; rfl
  refine Finset.prod_congr rfl fun i _ => ?_
  rw [e x (idx i) (idx' i)]
  congr 2

/-- **C73 (PAFS, flat model).** On a flat model the path-auxiliary sampler with a fixed number of flips
does not converge, whatever that number is. -/
theorem pafs_flat_not_ergodic (hD : 0 < D) {k : ℕ} (hk : k ≤ D) (h : ℝ → ℝ) (c : ℝ) (s : ℕ → LBState) :
    ¬ Ergodic (validStates 2 D) (fun _ => Real.exp c)
      (fun t => pafsBinaryKernel k 0 h (fun _ => c) (fun _ _ => 0) none (s t)) := by
  rw [pafs_ergodic_iff hD hk h (fun _ => c) (fun _ _ => 0) none s]
  rintro ⟨-, -, x, -, idx, hi, hne⟩
  refine hne ?_
  rw [pafsIdxLaw_const hD h 0 x (gwgPropose x idx) hi (hi.comp Fin.rev_injective)]
  rfl

/-- Instance for C73: three sites, weight two for a one at site `0`, constant scores: the one-flip GWG
chain converges. -/
example (s : ℕ → LBState) : Ergodic (validStates 2 3) (fun x => Real.exp (Real.log 2 * x 0))
    (fun t => gwgBinaryKernel 1 0 (fun r => r / 2) (fun x => Real.log 2 * x 0) (fun _ _ => 0) none (s t)) := by
  rw [gwg_one_ergodic_iff (by norm_num) (fun r => r / 2) (fun x => Real.log 2 * x 0)]
  refine ⟨fun _ => 0, by rw [mem_validStates_two]; intro j; left; rfl, 0, ?_⟩
  have e : ∀ x : Fin 3 → ℤ, gwgDist (fun r => r / 2) none x (fun _ => 0) =
      gwgDist (fun r => r / 2) none (fun _ => 0) (fun _ => 0) := by
    intro x; unfold gwgDist; simp
  rw [e (Function.update _ _ _)]
  have hp := softmax_pos (gwgDist (fun r => r / 2) none (fun _ : Fin 3 => 0) (fun _ => 0)) 0
  have h2 : Real.exp (Real.log 2) = 2 := Real.exp_log (by norm_num)
  simp [h2]
  linarith

/-- The same weights on five sites: the path-auxiliary chain with three flips converges. -/
example (s : ℕ → LBState) : Ergodic (validStates 2 5) (fun x => Real.exp (Real.log 2 * x 0))
    (fun t => pafsBinaryKernel 3 0 (fun r => r / 2) (fun x => Real.log 2 * x 0) (fun _ _ => 0) none (s t)) := by
  rw [pafs_ergodic_iff (by norm_num) (by norm_num) (fun r => r / 2) (fun x => Real.log 2 * x 0)]
  refine ⟨by decide, Or.inl (by norm_num), fun _ => 0, by rw [mem_validStates_two]; intro j; left; rfl,
    Fin.castLE (by norm_num), Fin.castLE_injective _, ?_⟩
  have e := pafsIdxLaw_const (D := 5) (by norm_num) (fun r => r / 2) 0 (fun _ => 0)
    (gwgPropose (fun _ => 0) (Fin.castLE (by norm_num : 3 ≤ 5)))
    (Fin.castLE_injective (by norm_num : 3 ≤ 5))
    (idx' := fun i : Fin 3 => Fin.castLE (by norm_num : 3 ≤ 5) i.rev)
    ((Fin.castLE_injective (by norm_num : 3 ≤ 5)).comp Fin.rev_injective)
  rw [← e]
  have hp : 0 < pafsIdxLaw (pafsLogProb (fun r => r / 2) (fun _ _ => 0) none (fun _ => 0))
      (Fin.castLE (by norm_num : 3 ≤ 5)) := by
    refine lt_of_le_of_ne (seqDraw_nonneg (fun _ => (Real.exp_pos _).le) _ _) (Ne.symm ?_)
    exact (seqDraw_ne_zero_iff (fun i => Real.exp_pos _) _ _).2
      ⟨List.nodup_ofFn.2 (Fin.castLE_injective _), fun _ _ => Finset.notMem_empty _⟩
  have h2 : Real.exp (Real.log 2) = 2 := Real.exp_log (by norm_num)
  have h0 : gwgPropose (fun _ : Fin 5 => (0 : ℤ)) (Fin.castLE (by norm_num : 3 ≤ 5)) 0 = 1 :=
    if_pos ⟨0, rfl⟩
  rw [h0]
  simp [h2]
  linarith

end Discs
