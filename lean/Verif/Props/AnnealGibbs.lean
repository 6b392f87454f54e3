import Verif.Model.AnnealGibbs
import Verif.Lemmas.Touch
import Verif.Props.Anneal
import Verif.Props.AnnealGap
import Verif.Props.Gradient

/-!
# Property C109: annealed runs with the Gibbs samplers

A Gibbs step redraws one site (block Gibbs: one block), so a chain forgets its past only over a sweep.  The
bounds therefore use the range `R` of the score and the largest change `r` of the score when at most `b` sites
change.
-/

namespace Discs

open Finset Spec

variable {D : ℕ}

namespace Spec

/-- `r` bounds the change of the score when at most `b` sites of the sample change. -/
def LocalRange {V : Type*} [DecidableEq V] {D : ℕ} (S : Finset (Fin D → V)) (E : (Fin D → V) → ℝ) (b : ℕ) (r : ℝ) :
    Prop :=
  ∀ x ∈ S, ∀ y ∈ S, (univ.filter fun j => x j ≠ y j).card ≤ b → E x - E y ≤ r

end Spec

/-- A run whose steps rewrite some sites with probability at least `c` for each value, all sites within `m`
steps, and each of which keeps the Boltzmann law at its temperature. -/
theorem touch_anneal {S : Finset (Fin D → ℤ)} {E : (Fin D → ℤ) → ℝ} {T : ℕ → ℝ}
    {K : ℕ → (Fin D → ℤ) → (Fin D → ℤ) → ℝ} {m : ℕ} (hK : ∀ t, Stochastic S (K t))
    (hinv : ∀ t, Invariant S (boltz E (T (t + 1))) (K t)) (A : ℕ → Set (Fin D)) {c : ℝ} (hc : 0 < c)
    (hmix : ∀ x ∈ S, ∀ y ∈ S, ∀ z : Fin D → ℤ, (∀ j, z j = x j ∨ z j = y j) → z ∈ S)
    (hcov : ∀ t j, ∃ i < m, j ∈ A (t + i)) {R lam : ℝ} (hlam : 0 ≤ lam)
    (hR : ∀ x ∈ S, ∀ y ∈ S, E x - E y ≤ R) (L : ℕ) (hT : ∀ t < L, |1 / T t - 1 / T (t + 1)| ≤ lam)
    (hge : ∀ t < L, ∀ x ∈ S, ∀ y ∈ S, (∀ j, j ∉ A t → y j = x j) → c ≤ K t x y)
    (hcm : S.card * c ^ m ≤ 1) :
    ∀ x ∈ S, l1 S (iterate S K L x) (target S (boltz E (T L))) ≤
      2 * (1 - S.card * c ^ m) ^ (L / m) + m * (2 * (lam * R)) / (S.card * c ^ m) := by
  intro x hx
  have hS : S.Nonempty := ⟨x, hx⟩
  have hcard : (0 : ℝ) < S.card := by exact_mod_cast hS.card_pos
  have hR0 : 0 ≤ R := by have := hR x hx x hx; linarith
  have := anneal_bound (m := m) (π := fun t => boltz E (T t)) (K := K) (L := K) (ρ := 0)
    (δ := S.card * c ^ m) (η := 2 * (lam * R)) (fun t y _ => boltz_pos E _ y) hK hK hinv le_rfl (by positivity)
    (fun t y _ => by simp) (by positivity) hcm (fun _ _ => 1 / S.card) (fun _ => by
      rw [Finset.sum_const, nsmul_eq_mul, mul_one_div, div_self hcard.ne']) L
    (fun t htm y hy z hz => by
      have := iterate_ge_of_touch (K := fun i => K (t + i)) (m := m) (fun i => hK (t + i)) (fun i => A (t + i)) hc.le
        (fun i hi => hge (t + i) (by omega)) hmix (hcov t) y hy z hz
      have e : (S.card : ℝ) * c ^ m * (1 / S.card) = c ^ m := by field_simp
      rw [e]; exact this)
    (fun t htn => (l1_boltz hS hR _ _).trans
      (mul_le_mul_of_nonneg_left (mul_le_mul_of_nonneg_right (hT t htn) hR0) (by norm_num))) x hx
  simpa using this

theorem gibbsKernel_ge {E : (Fin D → ℤ) → ℝ} {C : ℕ} (hC : 0 < C) {r : ℝ}
    (hr : LocalRange (validStates C D) E 1 r) {T Tm : ℝ} (hTm : 0 < Tm) (hT : Tm ≤ T) (s : GibbsState)
    {x y : Fin D → ℤ} (hx : x ∈ validStates C D) (hy : y ∈ validStates C D)
    (h : ∀ j : Fin D, (j : ℕ) ≠ s.index → y j = x j) :
    Real.exp (-(r / Tm)) / C ≤ gibbsKernel (fun x => E x / T) C s x y := by
  have : NeZero C := ⟨hC.ne'⟩
  have hr0 : 0 ≤ r := by have := hr x hx x hx (by simp); linarith
  obtain ⟨k, hk⟩ : ∃ k : Fin C, addAtMod C x s.index ((k : ℕ) : ℤ) = y := by
    have hCz : (0 : ℤ) < C := by exact_mod_cast hC
    by_cases hi : s.index < D
    · have h0 := Int.emod_nonneg (y ⟨_, hi⟩ - x ⟨_, hi⟩) hCz.ne'
      have h1 := Int.emod_lt_of_pos (y ⟨_, hi⟩ - x ⟨_, hi⟩) hCz
      refine ⟨⟨((y ⟨_, hi⟩ - x ⟨_, hi⟩) % C).toNat, by omega⟩, funext fun j => ?_⟩
      by_cases hj : (j : ℕ) = s.index
      · have : j = ⟨_, hi⟩ := Fin.ext hj
        simp only [addAtMod, hj, if_true]
        rw [Int.toNat_of_nonneg h0, Int.add_emod_emod, this, add_sub_cancel, emod_of_valid hy]
      · rw [addAtMod_other hx _ hj, h j hj]
    · have : y = x := funext fun j => h j (by have := j.2; omega)
      exact ⟨0, by rw [this]; simp [addAtMod_zero hx]⟩
  have hsc : ∀ i : Fin C, gibbsScores (fun x => E x / T) C x s.index i =
      E (addAtMod C x s.index ((i : ℕ) : ℤ)) / T := by
    intro i
    unfold gibbsScores
    split_ifs with h0
    · rw [h0]; simp [addAtMod_zero hx]
    · rfl
  have hT0 : 0 < T := hTm.trans_le hT
  have h1 := softmax_ge (gibbsScores (fun x => E x / T) C x s.index) (r := r / Tm) k fun i => by
    rw [hsc, hsc, ← sub_div]
    refine (div_le_div_of_nonneg_right (hr _ (addAtMod_valid hC _ _ _) _ (addAtMod_valid hC _ _ _) ?_) hT0.le).trans
      (div_le_div_of_nonneg_left hr0 hTm hT)
    refine (Finset.card_le_one.2 fun a ha b hb => ?_)
    have hout : ∀ j : Fin D, j ∈ (univ.filter fun j => addAtMod C x s.index ((i : ℕ) : ℤ) j ≠
        addAtMod C x s.index ((k : ℕ) : ℤ) j) → (j : ℕ) = s.index := by
      intro j hj
      by_contra hne
      exact (Finset.mem_filter.1 hj).2 (by rw [addAtMod_other hx _ hne, addAtMod_other hx _ hne])
    exact Fin.ext ((hout a ha).trans (hout b hb).symm)
  rw [Fintype.card_fin] at h1
  rw [← hk]
  exact h1.trans (law_ge (isProb_softmax _).1
    (fun k => (gibbsStep C (fun _ : Fin 1 => x) (fun _ => k) s).1 0) k)

theorem annealEnergy_div {X : Type*} (obj pen : X → ℝ) (temp : ℕ → ℝ) (t : ℕ) :
    annealEnergy obj pen temp t = fun x => (obj x - pen x) / temp (t + 1) := by
  funext x
  simp [annealEnergy, combForward]

theorem card_validStates (C D : ℕ) : ((validStates C D).card : ℝ) = (C : ℝ) ^ D := by
  simp [validStates, Fintype.card_piFinset]

/-- **C109 (Gibbs).** Law of the last sample of an annealed Gibbs run: distance to the Boltzmann law at the last
temperature. -/
theorem gibbs_anneal (obj pen : (Fin D → ℤ) → ℝ) (temp : ℕ → ℝ) {C : ℕ} (hC : 0 < C) {R r lam Tm : ℝ}
    (hlam : 0 ≤ lam)
    (hR : ∀ x ∈ validStates C D, ∀ y ∈ validStates C D, (obj x - pen x) - (obj y - pen y) ≤ R)
    (hr : LocalRange (validStates C D) (fun x => obj x - pen x) 1 r) (L : ℕ)
    (hT : ∀ t < L, |1 / temp t - 1 / temp (t + 1)| ≤ lam) (hTm : 0 < Tm) (hlow : ∀ t < L, Tm ≤ temp (t + 1)) :
    ∀ x ∈ validStates C D,
      l1 (validStates C D) (iterate (validStates C D) (gibbsAnneal obj pen temp C) L x)
        (target (validStates C D) (boltz (fun x => obj x - pen x) (temp L))) ≤
      2 * (1 - Real.exp (-(D * r / Tm))) ^ (L / D) + D * (2 * (lam * R)) / Real.exp (-(D * r / Tm)) := by
  intro x hx
  have hr0 : 0 ≤ r := by have := hr x hx x hx (by simp); linarith
  have hCr : (0 : ℝ) < C := by exact_mod_cast hC
  have e : ((validStates C D).card : ℝ) * (Real.exp (-(r / Tm)) / C) ^ D = Real.exp (-(D * r / Tm)) := by
    rw [card_validStates, div_pow, ← Real.exp_nat_mul, mul_div_cancel₀ _ (by positivity)]
    congr 1; ring
  have h := touch_anneal (S := validStates C D) (E := fun x => obj x - pen x) (T := temp)
    (K := gibbsAnneal obj pen temp C) (m := D) (fun t => gibbs_stochastic _ hC _)
    (fun t => by
      rw [← annealEnergy_boltz]
      exact invariant_of_reversible (gibbs_reversible _ hC _) (gibbs_stochastic _ hC _))
    (fun t => {j | (j : ℕ) = ((gibbsUpdate C D)^[t] gibbsInit).index}) (c := Real.exp (-(r / Tm)) / C)
    (by positivity) mix_valid (fun t j => by
      obtain ⟨t', ⟨h1, h2, h3⟩, -⟩ := gibbs_sweep (C := C) t j
      exact ⟨t' - t, by omega, by rw [Set.mem_ofPred_eq, Nat.add_sub_cancel' h1, h3]⟩)
    hlam hR L hT (fun t ht y hy z hz hyz => by
      unfold gibbsAnneal
      rw [annealEnergy_div]
      exact gibbsKernel_ge hC hr hTm (hlow t ht) _ hy hz hyz)
    (by rw [e]; exact Real.exp_le_one_iff.2 (neg_nonpos.2 (by positivity))) x hx
  rwa [e] at h

theorem blockGibbsKernel_ge {E : (Fin D → ℤ) → ℝ} {C b : ℕ} (hC : 0 < C) {r : ℝ}
    (hr : LocalRange (validStates C D) E b r) {T Tm : ℝ} (hTm : 0 < Tm) (hT : Tm ≤ T) (s : BlockState)
    {x y : Fin D → ℤ} (hx : x ∈ validStates C D) (hy : y ∈ validStates C D)
    (h : ∀ j : Fin D, ¬ covers s.index b j → y j = x j) :
    Real.exp (-(r / Tm)) / (C : ℝ) ^ b ≤ blockGibbsKernel (fun x => E x / T) C b s x y := by
  have hr0 : 0 ≤ r := by have := hr x hx x hx (by simp); linarith
  have hy' := hy
  rw [mem_validStates] at hy'
  have hv : (fun i : Fin b => if h : s.index + (i : ℕ) < D then (y ⟨s.index + i, h⟩).toNat else 0) ∈
      categoriesIter C b := by
    rw [mem_categoriesIter]
    intro i
    split_ifs with hi
    · have := hy' ⟨_, hi⟩; omega
    · exact hC
  obtain ⟨k, hk⟩ := List.get_of_mem hv
  have hset : setBlock x s.index ((categoriesIter C b).get k) = y := by
    rw [hk]
    funext j
    unfold setBlock
    split_ifs with hj
    · have e : s.index + ((j : ℕ) - s.index) = j := by omega
      dsimp only
      rw [dif_pos (by rw [e]; exact j.2)]
      simp only [e, Fin.eta]
      exact Int.toNat_of_nonneg (hy' j).1
    · exact (h j fun hc => hj ⟨hc.1, by have := hc.1; have := hc.2; omega⟩).symm
  have hT0 : 0 < T := hTm.trans_le hT
  have hcv : ∀ i, setBlock x s.index ((categoriesIter C b).get i) ∈ validStates C D := fun i =>
    setBlock_valid hx _ ((mem_categoriesIter _).1 (List.get_mem _ _))
  have h1 := softmax_ge (blockScores (fun x => E x / T) C b x s.index) (r := r / Tm) k fun i => by
    unfold blockScores
    rw [← sub_div]
    refine (div_le_div_of_nonneg_right (hr _ (hcv i) _ (hcv k) ?_) hT0.le).trans
      (div_le_div_of_nonneg_left hr0 hTm hT)
    refine (Finset.card_le_card_of_injOn (t := Finset.range b) (fun j : Fin D => (j : ℕ) - s.index) ?_ ?_).trans
      (by simp)
    · intro j hj
      by_contra hne
      refine (Finset.mem_filter.1 hj).2 ?_
      simp only [Finset.coe_range, Set.mem_Iio] at hne
      have : ¬ (s.index ≤ (j : ℕ) ∧ (j : ℕ) - s.index < b) := fun h => hne h.2
      simp only [setBlock, dif_neg this]
    · intro j hj j' hj' he
      have hin : ∀ j : Fin D, j ∈ (univ.filter fun j => setBlock x s.index ((categoriesIter C b).get i) j ≠
          setBlock x s.index ((categoriesIter C b).get k) j) → s.index ≤ (j : ℕ) := by
        intro j hj
        by_contra hne
        refine (Finset.mem_filter.1 hj).2 ?_
        have : ¬ (s.index ≤ (j : ℕ) ∧ (j : ℕ) - s.index < b) := fun h => hne h.1
        simp only [setBlock, dif_neg this]
      have a1 := hin j hj
      have a2 := hin j' hj'
      dsimp only at he
      exact Fin.ext (by omega)
  have hlen : (categoriesIter C b).length = C ^ b := by
    have := categoriesIter_count C D b ⟨0, 0, 0⟩
    simpa [blockGibbsUpdate] using this.symm
  have hlen' : (C : ℝ) ^ b = (Fintype.card (Fin (categoriesIter C b).length) : ℝ) := by
    rw [Fintype.card_fin, hlen, Nat.cast_pow]
  have : Nonempty (Fin (categoriesIter C b).length) := ⟨k⟩
  rw [← hset, hlen']
  exact h1.trans (law_ge (isProb_softmax _).1
    (fun k => (blockGibbsStep C b (fun _ : Fin 1 => x) (fun _ => k) s).1 0) k)

theorem blockDelta_le_one {C b : ℕ} (hC : 0 < C) (hb : 0 < b) {u : ℝ} (hu : 0 ≤ u) :
    (C : ℝ) ^ D * (Real.exp (-u) / (C : ℝ) ^ b) ^ (D / Nat.gcd D b) ≤ 1 := by
  have hC1 : (1 : ℝ) ≤ C := by exact_mod_cast hC
  set m := D / Nat.gcd D b with hm
  have hmb : D ≤ b * m := by
    have h1 : D ∣ b * m := by
      have h2 : b * m = b / Nat.gcd D b * D := by
        rw [hm]
        obtain ⟨u, hu⟩ := Nat.gcd_dvd_left D b
        obtain ⟨v, hv⟩ := Nat.gcd_dvd_right D b
        have hg : 0 < Nat.gcd D b := Nat.gcd_pos_of_pos_right _ hb
        have e1 : D / Nat.gcd D b = u := Nat.div_eq_of_eq_mul_right hg hu
        have e2 : b / Nat.gcd D b = v := Nat.div_eq_of_eq_mul_right hg hv
        rw [e1, e2]
        calc b * u = (Nat.gcd D b * v) * u := by rw [← hv]
          _ = v * (Nat.gcd D b * u) := by ring
          _ = v * D := by rw [← hu]
      rw [h2]; exact Dvd.intro_left _ rfl
    rcases Nat.eq_zero_or_pos (b * m) with h0 | h0
    · rcases Nat.eq_zero_or_pos D with hD | hD
      · omega
      · have : 0 < m := Nat.div_pos (Nat.le_of_dvd hD (Nat.gcd_dvd_left D b)) (Nat.gcd_pos_of_pos_left _ hD)
        have := Nat.mul_pos hb this
        omega
    · exact Nat.le_of_dvd h0 h1
  have h1 : (Real.exp (-u) / (C : ℝ) ^ b) ^ m ≤ (1 / (C : ℝ) ^ b) ^ m := by
    refine pow_le_pow_left₀ (by positivity) (div_le_div_of_nonneg_right ?_ (by positivity)) _
    exact Real.exp_le_one_iff.2 (neg_nonpos.2 hu)
  have h2 : (C : ℝ) ^ D * (1 / (C : ℝ) ^ b) ^ m ≤ 1 := by
    rw [div_pow, one_pow, mul_one_div, div_le_one (by positivity), ← pow_mul]
    exact pow_le_pow_right₀ hC1 hmb
  exact (mul_le_mul_of_nonneg_left h1 (by positivity)).trans h2

/-- **C109 (block Gibbs).** The same for every block size; `m` steps cover all sites. -/
theorem blockGibbs_anneal (obj pen : (Fin D → ℤ) → ℝ) (temp : ℕ → ℝ) {C b : ℕ} (hC : 0 < C) (hb : 0 < b)
    {R r lam Tm : ℝ} (hlam : 0 ≤ lam)
    (hR : ∀ x ∈ validStates C D, ∀ y ∈ validStates C D, (obj x - pen x) - (obj y - pen y) ≤ R)
    (hr : LocalRange (validStates C D) (fun x => obj x - pen x) b r) (L : ℕ)
    (hT : ∀ t < L, |1 / temp t - 1 / temp (t + 1)| ≤ lam) (hTm : 0 < Tm) (hlow : ∀ t < L, Tm ≤ temp (t + 1)) :
    let m := D / Nat.gcd D b
    let δ := (C : ℝ) ^ D * (Real.exp (-(r / Tm)) / (C : ℝ) ^ b) ^ m
    ∀ x ∈ validStates C D,
      l1 (validStates C D) (iterate (validStates C D) (blockGibbsAnneal obj pen temp C b) L x)
        (target (validStates C D) (boltz (fun x => obj x - pen x) (temp L))) ≤
      2 * (1 - δ) ^ (L / m) + m * (2 * (lam * R)) / δ := by
  intro m δ x hx
  have hr0 : 0 ≤ r := by have := hr x hx x hx (by simp); linarith
  have hCr : (0 : ℝ) < C := by exact_mod_cast hC
  have hδ1 : δ ≤ 1 := blockDelta_le_one hC hb (by positivity)
  have h := touch_anneal (S := validStates C D) (E := fun x => obj x - pen x) (T := temp)
    (K := blockGibbsAnneal obj pen temp C b) (m := m) (fun t => blockGibbs_stochastic _ hC _)
    (fun t => by
      rw [← annealEnergy_boltz]
      exact invariant_of_reversible (blockGibbs_reversible _ C b _) (blockGibbs_stochastic _ hC _))
    (fun t => {j | covers ((blockGibbsUpdate C D b)^[t] blockInit).index b j})
    (c := Real.exp (-(r / Tm)) / (C : ℝ) ^ b) (by positivity) mix_valid (fun t j => by
      obtain ⟨t', h1, h2, h3⟩ := block_covers_window hb j t
      exact ⟨t' - t, by omega, by rw [Set.mem_ofPred_eq, Nat.add_sub_cancel' h1, block_start]; exact h3⟩)
    hlam hR L hT (fun t ht y hy z hz hyz => by
      unfold blockGibbsAnneal
      rw [annealEnergy_div]
      exact blockGibbsKernel_ge hC hr hTm (hlow t ht) _ hy hz hyz)
    (by rw [card_validStates]; exact hδ1) x hx
  rwa [card_validStates] at h

/-! ### Optima -/

/-- What a law within `2 e` of a Boltzmann law says about optima: from below with the gap, from above with the
range. -/
theorem optima_of_l1 {X : Type*} {S : Finset X} {E p : X → ℝ} {T e : ℝ} (hS : S.Nonempty) (hT : 0 < T)
    (hp : ∑ x ∈ S, p x = 1) (h : l1 S p (target S (boltz E T)) ≤ 2 * e) :
    (∀ g, (∀ x ∈ optima S E, ∀ y ∈ S, y ∉ optima S E → E y + g ≤ E x) →
      1 - S.card * Real.exp (-(g / T)) - e ≤ mass p (optima S E)) ∧
    (∀ R, (∀ x ∈ S, ∀ y ∈ S, E x - E y ≤ R) → (∃ z ∈ S, z ∉ optima S E) →
      mass p (optima S E) ≤ 1 - Real.exp (-(R / T)) / S.card + e) := by
  have hZ := sum_boltz_pos hS E T
  refine ⟨fun g hg => ?_, ?_⟩
  · have h2 := mass_optima_ge_gap hS hT hg
    have h3 := mass_ge_of_l1 (optima_subset (S := S) (E := E)) (p := p) (q := target S (boltz E T))
      (hp.trans (sum_target hZ).symm)
    linarith
  · rintro R hR ⟨z, hz, hzo⟩
    have h3 := mass_ge_of_l1 (optima_subset (S := S) (E := E)) (p := target S (boltz E T)) (q := p)
      ((sum_target hZ).trans hp.symm)
    have h4 : mass (target S (boltz E T)) (optima S E) ≤ 1 - target S (boltz E T) z := by
      have : mass (target S (boltz E T)) (optima S E) + target S (boltz E T) z ≤
          ∑ y ∈ S, target S (boltz E T) y := by
        classical
        unfold mass
        rw [add_comm, ← Finset.sum_insert hzo]
        exact Finset.sum_le_sum_of_subset_of_nonneg (Finset.insert_subset hz optima_subset) fun y hy _ =>
          target_nonneg (fun w _ => (boltz_pos E T w).le) y hy
      rw [sum_target hZ] at this
      linarith
    have h5 : Real.exp (-(R / T)) / S.card ≤ target S (boltz E T) z := by
      have hc : (0 : ℝ) < S.card := by exact_mod_cast Finset.card_pos.2 ⟨z, hz⟩
      unfold target
      rw [div_le_div_iff₀ hc hZ, Finset.mul_sum]
      calc ∑ y ∈ S, Real.exp (-(R / T)) * boltz E T y ≤ ∑ _y ∈ S, boltz E T z := by
            refine Finset.sum_le_sum fun y hy => ?_
            unfold boltz
            rw [← Real.exp_add]
            refine Real.exp_le_exp.2 ?_
            rw [← neg_div, ← add_div]
            refine div_le_div_of_nonneg_right ?_ hT.le
            have := hR y hy z hz
            linarith
        _ = boltz E T z * S.card := by rw [Finset.sum_const, nsmul_eq_mul, mul_comm]
    have h6 : l1 S (target S (boltz E T)) p ≤ 2 * e := by
      refine le_trans (le_of_eq ?_) h
      unfold l1
      exact Finset.sum_congr rfl fun y _ => abs_sub_comm _ _
    linarith

/-- **C109 (Gibbs).** Probability that the last sample is an optimum. -/
theorem gibbs_anneal_optimum (obj pen : (Fin D → ℤ) → ℝ) (temp : ℕ → ℝ) {C : ℕ} (hC : 0 < C)
    {R r lam Tm g : ℝ} (hlam : 0 ≤ lam)
    (hR : ∀ x ∈ validStates C D, ∀ y ∈ validStates C D, (obj x - pen x) - (obj y - pen y) ≤ R)
    (hr : LocalRange (validStates C D) (fun x => obj x - pen x) 1 r) (L : ℕ)
    (hT : ∀ t < L, |1 / temp t - 1 / temp (t + 1)| ≤ lam) (hTm : 0 < Tm) (hlow : ∀ t < L, Tm ≤ temp (t + 1))
    (hTL : 0 < temp L)
    (hg : ∀ x ∈ optima (validStates C D) (fun x => obj x - pen x), ∀ y ∈ validStates C D,
      y ∉ optima (validStates C D) (fun x => obj x - pen x) → (obj y - pen y) + g ≤ obj x - pen x) :
    ∀ x ∈ validStates C D,
      1 - (C : ℝ) ^ D * Real.exp (-(g / temp L)) -
        ((1 - Real.exp (-(D * r / Tm))) ^ (L / D) + D * (lam * R) / Real.exp (-(D * r / Tm))) ≤
      mass (iterate (validStates C D) (gibbsAnneal obj pen temp C) L x)
        (optima (validStates C D) (fun x => obj x - pen x)) := by
  intro x hx
  have h := gibbs_anneal obj pen temp hC hlam hR hr L hT hTm hlow x hx
  rw [← card_validStates]
  refine (optima_of_l1 ⟨x, hx⟩ hTL ((stochastic_iterate (fun t => gibbs_stochastic _ hC _) L).2.1 x hx)
    (h.trans (le_of_eq (by ring)))).1 g hg

/-! ### Long chains -/

theorem anneal_long_sweeps {b Λ : ℝ} (hb : 0 < b) (hb1 : b ≤ 1) {m : ℕ} (hm : 0 < m) {ε : ℝ} (hε : 0 < ε) :
    ∃ L₀ : ℕ, 0 < L₀ ∧ ∀ L : ℕ, L₀ ≤ L → 2 * (1 - b) ^ (L / m) + m * (2 * (Λ / L)) / b ≤ ε := by
  have h1 : Filter.Tendsto (fun L : ℕ => 2 * (1 - b) ^ (L / m) + m * (2 * (Λ / L)) / b) Filter.atTop
      (nhds (2 * 0 + m * (2 * 0) / b)) := by
    refine Filter.Tendsto.add (Filter.Tendsto.const_mul _ ?_)
      (Filter.Tendsto.div_const (Filter.Tendsto.const_mul _ (Filter.Tendsto.const_mul _ ?_)) _)
    · exact (tendsto_pow_atTop_nhds_zero_of_lt_one (by linarith) (by linarith)).comp
        (Nat.tendsto_div_const_atTop hm.ne')
    · exact tendsto_const_div_atTop_nhds_zero_nat Λ
  rw [show (2 * 0 + m * (2 * 0) / b : ℝ) = 0 by simp] at h1
  obtain ⟨N, hN⟩ := Filter.eventually_atTop.1 (h1.eventually (gt_mem_nhds hε))
  exact ⟨N + 1, Nat.succ_pos _, fun L hL => (hN L (by omega)).le⟩

/-- **C109 (Gibbs, linear schedule).** Long runs end with the Boltzmann law at the final temperature; there
is no other condition. -/
theorem gibbs_anneal_linear (obj pen : (Fin D → ℤ) → ℝ) {init fin : ℝ} (hif : fin ≤ init) (hf : 0 < fin)
    {C : ℕ} (hC : 0 < C) (hD : 0 < D) {ε : ℝ} (hε : 0 < ε) :
    ∃ L₀ : ℕ, ∀ L, L₀ ≤ L → ∀ x ∈ validStates C D,
      l1 (validStates C D) (iterate (validStates C D) (gibbsAnneal obj pen (linearSchedule init fin L) C) L x)
        (target (validStates C D) (boltz (fun x => obj x - pen x) fin)) ≤ ε := by
  obtain ⟨R, hR⟩ := exists_range (validStates C D) fun x => obj x - pen x
  obtain ⟨L₀, h0, hL₀⟩ := anneal_long_sweeps (b := Real.exp (-(D * |R| / fin)))
    (Λ := (init - fin) / fin ^ 2 * R) (Real.exp_pos _)
    (Real.exp_le_one_iff.2 (neg_nonpos.2 (by positivity))) hD hε
  refine ⟨L₀, fun L hL x hx => ?_⟩
  have hLp : 0 < L := by omega
  have hLp' : (0 : ℝ) < L := by exact_mod_cast hLp
  have h := gibbs_anneal obj pen (linearSchedule init fin L) hC (r := |R|)
    (lam := (init - fin) / (L * fin ^ 2)) (div_nonneg (by linarith) (by positivity)) hR
    (fun y hy z hz _ => (hR y hy z hz).trans (le_abs_self R)) L
    (fun t htL => linear_drift hif hf htL) hf
    (fun t _ => (linear_schedule init fin hif hf L (t + 1) (t + 1) le_rfl).2.2.1) x hx
  rw [(linear_schedule init fin hif hf L L L le_rfl).2.2.2.2 hLp] at h
  have e : (init - fin) / (L * fin ^ 2) * R = (init - fin) / fin ^ 2 * R / L := by
    field_simp
  rw [e] at h
  exact h.trans (hL₀ L hL)

/-- **C109 (Gibbs, exponential schedule).** Long runs end with the Boltzmann law at temperature
`max(init * decay_rate, final)`. -/
theorem gibbs_anneal_exp (obj pen : (Fin D → ℤ) → ℝ) {init fin rate : ℝ} (hif : fin ≤ init) (hf : 0 < fin)
    (hr0 : 0 < rate) (hr1 : rate < 1) {C : ℕ} (hC : 0 < C) (hD : 0 < D) {ε : ℝ} (hε : 0 < ε) :
    ∃ L₀ : ℕ, ∀ L, L₀ ≤ L → ∀ x ∈ validStates C D,
      l1 (validStates C D) (iterate (validStates C D) (gibbsAnneal obj pen (expSchedule init fin rate L) C) L x)
        (target (validStates C D) (boltz (fun x => obj x - pen x) (max (init * rate) fin))) ≤ ε := by
  obtain ⟨R, hR⟩ := exists_range (validStates C D) fun x => obj x - pen x
  have hm : 0 < max (init * rate) fin := lt_max_of_lt_right hf
  obtain ⟨L₀, h0, hL₀⟩ := anneal_long_sweeps (b := Real.exp (-(D * |R| / fin)))
    (Λ := -Real.log rate / max (init * rate) fin * R) (Real.exp_pos _)
    (Real.exp_le_one_iff.2 (neg_nonpos.2 (by positivity))) hD hε
  refine ⟨L₀, fun L hL x hx => ?_⟩
  have hLp : 0 < L := by omega
  have hLp' : (0 : ℝ) < L := by exact_mod_cast hLp
  have hlog : 0 ≤ -Real.log rate := neg_nonneg.2 (Real.log_nonpos hr0.le hr1.le)
  have h := gibbs_anneal obj pen (expSchedule init fin rate L) hC (r := |R|)
    (lam := -Real.log rate / (L * max (init * rate) fin)) (by positivity) hR
    (fun y hy z hz _ => (hR y hy z hz).trans (le_abs_self R)) L
    (fun t htL => exp_drift hif hf hr0 hr1 htL) hf
    (fun t _ => (exp_schedule init fin rate hif hf hr0 hr1 L (t + 1) (t + 1) le_rfl).2.2.1) x hx
  rw [(exp_schedule init fin rate hif hf hr0 hr1 L L L le_rfl).2.2.2.2 hLp] at h
  have e : -Real.log rate / (L * max (init * rate) fin) * R = -Real.log rate / max (init * rate) fin * R / L := by
    field_simp
  rw [e] at h
  exact h.trans (hL₀ L hL)

/-- **C109 (block Gibbs, both schedules).** -/
theorem blockGibbs_anneal_long (obj pen : (Fin D → ℤ) → ℝ) {init fin rate : ℝ} (hif : fin ≤ init) (hf : 0 < fin)
    (hr0 : 0 < rate) (hr1 : rate < 1) {C b : ℕ} (hC : 0 < C) (hb : 0 < b) (hD : 0 < D) {ε : ℝ} (hε : 0 < ε) :
    (∃ L₀ : ℕ, ∀ L, L₀ ≤ L → ∀ x ∈ validStates C D,
      l1 (validStates C D)
        (iterate (validStates C D) (blockGibbsAnneal obj pen (linearSchedule init fin L) C b) L x)
        (target (validStates C D) (boltz (fun x => obj x - pen x) fin)) ≤ ε) ∧
    (∃ L₀ : ℕ, ∀ L, L₀ ≤ L → ∀ x ∈ validStates C D,
      l1 (validStates C D)
        (iterate (validStates C D) (blockGibbsAnneal obj pen (expSchedule init fin rate L) C b) L x)
        (target (validStates C D) (boltz (fun x => obj x - pen x) (max (init * rate) fin))) ≤ ε) := by
  obtain ⟨R, hR⟩ := exists_range (validStates C D) fun x => obj x - pen x
  have hm : 0 < max (init * rate) fin := lt_max_of_lt_right hf
  have hmp : 0 < D / Nat.gcd D b :=
    Nat.div_pos (Nat.le_of_dvd hD (Nat.gcd_dvd_left D b)) (Nat.gcd_pos_of_pos_left _ hD)
  have hCr : (0 : ℝ) < C := by exact_mod_cast hC
  set δ := (C : ℝ) ^ D * (Real.exp (-(|R| / fin)) / (C : ℝ) ^ b) ^ (D / Nat.gcd D b) with hδ
  have hδ0 : 0 < δ := by positivity
  have hδ1 : δ ≤ 1 := blockDelta_le_one hC hb (div_nonneg (abs_nonneg R) hf.le)
  refine ⟨?_, ?_⟩
  · obtain ⟨L₀, h0, hL₀⟩ := anneal_long_sweeps (Λ := (init - fin) / fin ^ 2 * R) hδ0 hδ1 hmp hε
    refine ⟨L₀, fun L hL x hx => ?_⟩
    have hLp : 0 < L := by omega
    have hLp' : (0 : ℝ) < L := by exact_mod_cast hLp
    have h := blockGibbs_anneal obj pen (linearSchedule init fin L) hC hb (r := |R|)
      (lam := (init - fin) / (L * fin ^ 2)) (div_nonneg (by linarith) (by positivity)) hR
      (fun y hy z hz _ => (hR y hy z hz).trans (le_abs_self R)) L
      (fun t htL => linear_drift hif hf htL) hf
      (fun t _ => (linear_schedule init fin hif hf L (t + 1) (t + 1) le_rfl).2.2.1) x hx
    rw [(linear_schedule init fin hif hf L L L le_rfl).2.2.2.2 hLp, ← hδ] at h
    have e : (init - fin) / (L * fin ^ 2) * R = (init - fin) / fin ^ 2 * R / L := by
      field_simp
    rw [e] at h
    exact h.trans (hL₀ L hL)
  · obtain ⟨L₀, h0, hL₀⟩ := anneal_long_sweeps (Λ := -Real.log rate / max (init * rate) fin * R) hδ0 hδ1 hmp hε
    refine ⟨L₀, fun L hL x hx => ?_⟩
    have hLp : 0 < L := by omega
    have hLp' : (0 : ℝ) < L := by exact_mod_cast hLp
    have hlog : 0 ≤ -Real.log rate := neg_nonneg.2 (Real.log_nonpos hr0.le hr1.le)
    have h := blockGibbs_anneal obj pen (expSchedule init fin rate L) hC hb (r := |R|)
      (lam := -Real.log rate / (L * max (init * rate) fin)) (by positivity) hR
      (fun y hy z hz _ => (hR y hy z hz).trans (le_abs_self R)) L
      (fun t htL => exp_drift hif hf hr0 hr1 htL) hf
      (fun t _ => (exp_schedule init fin rate hif hf hr0 hr1 L (t + 1) (t + 1) le_rfl).2.2.1) x hx
    rw [(exp_schedule init fin rate hif hf hr0 hr1 L L L le_rfl).2.2.2.2 hLp, ← hδ] at h
    have e : -Real.log rate / (L * max (init * rate) fin) * R =
        -Real.log rate / max (init * rate) fin * R / L := by
      field_simp
    rw [e] at h
    exact h.trans (hL₀ L hL)

/-- **C109 (Gibbs, refuted for `exp_decay` with `init * decay_rate` above the final temperature).** -/
theorem gibbs_anneal_exp_stuck (obj pen : (Fin D → ℤ) → ℝ) {init fin rate : ℝ} (hif : fin ≤ init) (hf : 0 < fin)
    (hr0 : 0 < rate) (hr1 : rate < 1) (hend : fin ≤ init * rate) {C : ℕ} (hC : 0 < C) (hD : 0 < D) {R : ℝ}
    (hR : ∀ x ∈ validStates C D, ∀ y ∈ validStates C D, (obj x - pen x) - (obj y - pen y) ≤ R)
    (hz : ∃ z ∈ validStates C D, z ∉ optima (validStates C D) fun x => obj x - pen x) {ε : ℝ} (hε : 0 < ε) :
    ∃ L₀ : ℕ, ∀ L, L₀ ≤ L → ∀ x ∈ validStates C D,
      mass (iterate (validStates C D) (gibbsAnneal obj pen (expSchedule init fin rate L) C) L x)
        (optima (validStates C D) fun x => obj x - pen x) ≤
      1 - Real.exp (-(R / (init * rate))) / (C : ℝ) ^ D + ε := by
  obtain ⟨L₀, h⟩ := gibbs_anneal_exp (D := D) obj pen hif hf hr0 hr1 hC hD (ε := 2 * ε) (by linarith)
  refine ⟨L₀, fun L hL x hx => ?_⟩
  have h1 := h L hL x hx
  rw [max_eq_left hend] at h1
  rw [← card_validStates]
  exact (optima_of_l1 ⟨x, hx⟩ (hf.trans_le hend)
    ((stochastic_iterate (fun t => gibbs_stochastic _ hC _) L).2.1 x hx) h1).2 R hR hz

/-- **C109 (MaxCut, Gibbs).** With integer weights and a linear schedule, a long run ends in a maximum cut up to
`2 ^ n exp (-1 / final)`. -/
theorem maxcut_gibbs_anneal {N : ℕ} (es : List (Edge N)) (padded : ℕ) (hw : ∀ e ∈ es, ∃ k : ℤ, e.w = k)
    {init fin : ℝ} (hif : fin ≤ init) (hf : 0 < fin) {ε : ℝ} (hε : 0 < ε) :
    ∃ L₀ : ℕ, ∀ L, L₀ ≤ L → ∀ x ∈ validStates 2 (N + 1),
      1 - 2 ^ (N + 1) * Real.exp (-(1 / fin)) - ε ≤
      mass (iterate (validStates 2 (N + 1))
          (gibbsAnneal (maxcutScore es padded) noPenalty (linearSchedule init fin L) 2) L x)
        (optima (validStates 2 (N + 1)) fun x => cutWeight es (asReal x)) := by
  obtain ⟨L₀, h⟩ := gibbs_anneal_linear (D := N + 1) (maxcutScore es padded) noPenalty hif hf (C := 2) (by norm_num)
    (Nat.succ_pos N) (ε := 2 * ε) (by linarith)
  refine ⟨L₀, fun L hL x hx => ?_⟩
  have e0 : (fun x : Fin (N + 1) → ℤ => maxcutScore es padded x - noPenalty x) = maxcutScore es padded := by
    funext x; simp [noPenalty]
  have e1 : optima (validStates 2 (N + 1)) (fun x => cutWeight es (asReal x)) =
      optima (validStates 2 (N + 1)) (maxcutScore es padded) := by
    ext z
    rw [mem_optima, mem_optima]
    refine and_congr_right fun hz => ⟨fun h y hy => ?_, fun h y hy => ?_⟩
    · rw [maxcutScore_eq es padded hy, maxcutScore_eq es padded hz]; exact h y hy
    · have := h y hy
      rwa [maxcutScore_eq es padded hy, maxcutScore_eq es padded hz] at this
  have h1 := h L hL x hx
  rw [e0] at h1
  have h2 := (optima_of_l1 ⟨x, hx⟩ hf
    ((stochastic_iterate (fun t => gibbs_stochastic _ (by norm_num) _) L).2.1 x hx) h1).1 1
    (maxcut_gap es padded hw)
  rw [card_validStates] at h2
  rw [e1]
  exact_mod_cast h2

/-- A non-trivial instance: on a triangle with weights 1, 2, 3, Gibbs sampling from temperature 1 down to 0.1
ends in a maximum cut with probability at least 0.99, if the run is long enough. -/
example : ∃ L₀ : ℕ, ∀ L, L₀ ≤ L → ∀ x ∈ validStates 2 (2 + 1), 0.99 ≤
    mass (iterate (validStates 2 (2 + 1))
        (gibbsAnneal (maxcutScore ([⟨0, 1, 1⟩, ⟨1, 2, 2⟩, ⟨0, 2, 3⟩] : List (Edge 2)) 0) noPenalty
          (linearSchedule 1 (1 / 10) L) 2) L x)
      (optima (validStates 2 (2 + 1)) fun x =>
        cutWeight ([⟨0, 1, 1⟩, ⟨1, 2, 2⟩, ⟨0, 2, 3⟩] : List (Edge 2)) (asReal x)) := by
  obtain ⟨L₀, h⟩ := maxcut_gibbs_anneal ([⟨0, 1, 1⟩, ⟨1, 2, 2⟩, ⟨0, 2, 3⟩] : List (Edge 2)) 0 (by
      simp only [List.mem_cons, List.not_mem_nil, or_false]
      rintro e (rfl | rfl | rfl)
      exacts [⟨1, by norm_num⟩, ⟨2, by norm_num⟩, ⟨3, by norm_num⟩])
    (init := 1) (fin := 1 / 10) (by norm_num) (by norm_num) (ε := 0.002) (by norm_num)
  refine ⟨L₀, fun L hL x hx => le_trans ?_ (h L hL x hx)⟩
  have e1 : Real.exp (-(1 / (1 / 10))) ≤ 1 / 1024 := by
    have h2 : (2 : ℝ) ≤ Real.exp 1 := by have := Real.add_one_le_exp (1 : ℝ); linarith
    have h3 : (2 : ℝ) ^ 10 ≤ Real.exp 1 ^ 10 := pow_le_pow_left₀ (by norm_num) h2 10
    rw [← Real.exp_nat_mul] at h3
    rw [show (-(1 / (1 / 10)) : ℝ) = -((10 : ℕ) * 1) by norm_num, Real.exp_neg, one_div]
    exact inv_anti₀ (by norm_num) (by norm_num at h3 ⊢; exact h3)
  norm_num at e1 ⊢
  linarith

/-! ### The gradient at the current temperature -/

/-- **C109 (gradients).** If `g` is the gradient of the score, the gradient used in a step is that of the energy
of the same step, at every temperature. -/
theorem annealGrad_eq (obj pen : (Fin D → ℝ) → ℝ) (temp : ℕ → ℝ) (t : ℕ) (x : Fin D → ℝ) (j : Fin D) :
    annealGrad (fun x j => pderiv (fun x => obj x - pen x) x j) temp t x j =
      pderiv (annealEnergy obj pen temp t) x j := by
  rw [annealEnergy_div]
  unfold annealGrad pderiv
  rw [one_mul, deriv_div_const]

/-- A non-trivial instance: half the gradient at temperature 2. -/
example : annealGrad (D := 1) (fun x j => pderiv (fun x => 3 * x 0) x j) (fun _ => 2) 0 (fun _ => 1) 0 = 3 / 2 := by
  unfold annealGrad pderiv
  simp

end Discs
