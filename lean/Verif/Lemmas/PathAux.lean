import Verif.Model.PathAux
import Verif.Lemmas.Draws
import Verif.Lemmas.SiteMH
import Mathlib.Data.Fintype.Perm

/-!
# Helper lemmas: path-auxiliary sampler
-/

namespace Discs

open Finset Spec

variable {D : ℕ}

/-! ## Pushing a draw forward -/

theorem lawU_push {X Ω Ω' : Type*} [Fintype Ω] [Fintype Ω'] [DecidableEq Ω'] (p : Ω → ℝ) (φ : Ω → Ω')
    {f : Ω → ℝ → X} {f' : Ω' → ℝ → X} (hf : ∀ ω u, f ω u = f' (φ ω) u) (y : X) :
    lawU p f y = lawU (fun ω' => ∑ ω, if φ ω = ω' then p ω else 0) f' y := by
  unfold lawU
  simp only [Finset.sum_mul, ite_mul, zero_mul]
  rw [Finset.sum_comm]
  refine Finset.sum_congr rfl fun ω _ => ?_
  rw [Finset.sum_ite_eq, if_pos (mem_univ _)]
  simp only [hf]

/-! ## Log-likelihoods of trajectories -/

theorem pafsIdxLaw_ne_zero {k : ℕ} {lp : Fin D → ℝ} {idx : Fin k → Fin D}
    (h : pafsIdxLaw lp idx ≠ 0) : Function.Injective idx := by
  unfold pafsIdxLaw at h
  rw [seqDraw_ne_zero_iff fun i => Real.exp_pos _] at h
  exact List.nodup_ofFn.1 h.1

theorem pafsIdxLaw_prod {k : ℕ} {lp : Fin D → ℝ} (hlp : ∑ j, Real.exp (lp j) = 1)
    {idx : Fin k → Fin D} (hi : Function.Injective idx) :
    pafsIdxLaw lp idx = ∏ i, Real.exp (lp (idx i)) /
      (1 - ∑ j ∈ univ.filter (· < i), Real.exp (lp (idx j))) := by
  unfold pafsIdxLaw
  rw [seqDraw_ofFn hlp hi ∅ (by simp)]
  simp

theorem isProb_pafsIdxLaw {k : ℕ} (hk : k ≤ D) (lp : Fin D → ℝ) :
    IsProb (pafsIdxLaw (k := k) lp) :=
  isProb_seqDraw (fun _ => Real.exp_pos _) (by simpa using hk)

theorem exp_sum_renormalize {k : ℕ} {lp : Fin D → ℝ} (hlp : ∑ j, Real.exp (lp j) = 1)
    {idx : Fin k → Fin D} (hi : Function.Injective idx) :
    Real.exp (∑ i, (renormalize (fun i => ((lp (idx i) : ℝ) : WithBot ℝ)) i).unbotD 0) =
      pafsIdxLaw lp idx := by
  obtain ⟨r, hr, hs⟩ := renormalize_sum (p := fun j => Real.exp (lp j)) (fun _ => Real.exp_pos _) hlp hi
  simp only [Real.log_exp] at hr
  rw [hr]
  exact hs

theorem exp_pafsLlIdx {k : ℕ} {lp : Fin D → ℝ} (hlp : ∑ j, Real.exp (lp j) = 1)
    {idx : Fin k → Fin D} (hi : Function.Injective idx) :
    Real.exp (pafsLlIdx lp idx) = pafsIdxLaw lp idx := by
  unfold pafsLlIdx
  by_cases hk : k > 1
  · simp only [hk, if_true]
    exact exp_sum_renormalize hlp hi
  · simp only [hk, if_false]
    rw [pafsIdxLaw_prod hlp hi, Real.exp_sum]
    refine Finset.prod_congr rfl fun i _ => ?_
    have : univ.filter (· < i) = ∅ := by
      ext j
      simp only [mem_filter, mem_univ, true_and, notMem_empty, iff_false, not_lt]
      rw [Fin.le_def]; omega
    rw [this, Finset.sum_empty, sub_zero, div_one]
    rfl

theorem exp_pafsLlRev {k : ℕ} {lp : Fin D → ℝ} (hlp : ∑ j, Real.exp (lp j) = 1)
    {idx : Fin k → Fin D} (hi : Function.Injective idx) :
    Real.exp (pafsLlRev lp idx) = pafsIdxLaw lp (fun i => idx i.rev) :=
  exp_sum_renormalize hlp fun _ _ h => Fin.rev_injective (hi h)

/-! ## The adaptive selection -/

/-- The selected sites in draw order. -/
def firstSites {ns : ℕ} (h : ns ≤ D) (σ : Equiv.Perm (Fin D)) (i : Fin ns) : Fin D := σ (Fin.castLE h i)

theorem firstSites_injective {ns : ℕ} (h : ns ≤ D) (σ : Equiv.Perm (Fin D)) :
    Function.Injective (firstSites h σ) :=
  fun _ _ e => Fin.castLE_injective h (σ.injective e)

theorem orderMask_iff {ns : ℕ} (h : ns ≤ D) (σ : Equiv.Perm (Fin D)) (j : Fin D) :
    orderMask ns σ j = true ↔ ∃ i, firstSites h σ i = j := by
  unfold orderMask firstSites
  rw [decide_eq_true_iff]
  constructor
  · intro hj
    refine ⟨⟨(σ.symm j : ℕ), hj⟩, ?_⟩
    have : Fin.castLE h ⟨(σ.symm j : ℕ), hj⟩ = σ.symm j := Fin.ext rfl
    rw [this, Equiv.apply_symm_apply]
  · rintro ⟨i, rfl⟩
    rw [Equiv.symm_apply_apply]
    exact i.2

theorem maskFlip_eq {ns : ℕ} (h : ns ≤ D) (x : Fin D → ℤ) (σ : Equiv.Perm (Fin D)) :
    maskFlip x (orderMask ns σ) = gwgPropose x (firstSites h σ) := by
  funext j
  unfold maskFlip gwgPropose
  by_cases hj : ∃ i, firstSites h σ i = j
  · rw [if_pos hj, (orderMask_iff h σ j).2 hj]; simp
  · have : orderMask ns σ j = false := by
      rw [← Bool.not_eq_true, orderMask_iff h]; exact hj
    rw [if_neg hj, this]; simp

theorem sum_castLE {ns : ℕ} (h : ns ≤ D) (F : Fin D → ℝ) :
    ∑ i : Fin D, (if (i : ℕ) < ns then F i else 0) = ∑ i : Fin ns, F (Fin.castLE h i) := by
  rw [← Finset.sum_filter]
  have : (univ.filter fun i : Fin D => (i : ℕ) < ns) = univ.map (Fin.castLEEmb h) := by
    ext i
    simp only [mem_filter, mem_univ, true_and, mem_map, Fin.castLEEmb_apply]
    constructor
    · intro hi; exact ⟨⟨i, hi⟩, Fin.ext rfl⟩
    · rintro ⟨a, rfl⟩; exact a.2
  rw [this, Finset.sum_map]
  rfl

theorem sum_lt_castLE {ns : ℕ} (h : ns ≤ D) (i : Fin ns) (F : Fin D → ℝ) :
    ∑ j ∈ univ.filter (· < Fin.castLE h i), F j =
      ∑ j ∈ univ.filter (· < i), F (Fin.castLE h j) := by
  have : univ.filter (· < Fin.castLE h i) = (univ.filter (· < i)).map (Fin.castLEEmb h) := by
    ext j
    simp only [mem_filter, mem_univ, true_and, mem_map, Fin.castLEEmb_apply]
    constructor
    · intro hj
      have hj' : (j : ℕ) < i := hj
      exact ⟨⟨j, by omega⟩, hj', Fin.ext rfl⟩
    · rintro ⟨a, ha, rfl⟩; exact ha
  rw [this, Finset.sum_map]
  rfl

theorem remaining_pos {k : ℕ} {lp : Fin D → ℝ} (hlp : ∑ j, Real.exp (lp j) = 1)
    {idx : Fin k → Fin D} (hi : Function.Injective idx) {s : Finset (Fin k)} {i : Fin k} (his : i ∉ s) :
    0 < 1 - ∑ j ∈ s, Real.exp (lp (idx j)) := by
  have h1 : ∑ j ∈ insert i s, Real.exp (lp (idx j)) ≤ 1 := by
    rw [← hlp]
    have e : ∑ j ∈ insert i s, Real.exp (lp (idx j)) =
        ∑ y ∈ (insert i s).map ⟨idx, hi⟩, Real.exp (lp y) := by rw [Finset.sum_map]; rfl
    rw [e]
    exact Finset.sum_le_sum_of_subset_of_nonneg (Finset.subset_univ _) fun _ _ _ => (Real.exp_pos _).le
  rw [Finset.sum_insert his] at h1
  linarith [Real.exp_pos (lp (idx i))]

theorem exp_sum_pafsLlSel {ns : ℕ} (h : ns ≤ D) {lp : Fin D → ℝ} (hlp : ∑ j, Real.exp (lp j) = 1)
    (σ : Equiv.Perm (Fin D)) :
    Real.exp (∑ j, pafsLlSel lp ns σ j) = pafsIdxLaw lp (firstSites h σ) := by
  have hsum : ∑ j, expE ((lp (σ j) : ℝ) : WithBot ℝ) ≤ 1 := by
    have : ∑ j, expE ((lp (σ j) : ℝ) : WithBot ℝ) = ∑ j, Real.exp (lp j) :=
      Equiv.sum_comp σ (fun j => Real.exp (lp j))
    rw [this, hlp]
  have hterm : ∀ i, pafsLlSel lp ns σ (σ i) = if (i : ℕ) < ns then
      lp (σ i) - Real.log (1 - ∑ j ∈ univ.filter (· < i), Real.exp (lp (σ j))) else 0 := by
    intro i
    unfold pafsLlSel orderMask
    rw [Equiv.symm_apply_apply, renormalize_eq hsum rfl]
    by_cases hi : (i : ℕ) < ns
    · simp only [hi, decide_true, if_true, mul_one]; rfl
    · simp [hi]
  rw [← Equiv.sum_comp σ]
  simp only [hterm]
  rw [sum_castLE h, pafsIdxLaw_prod hlp (firstSites_injective h σ), Real.exp_sum]
  refine Finset.prod_congr rfl fun i _ => ?_
  rw [sum_lt_castLE h, Real.exp_sub, Real.exp_log]
  · rfl
  · exact remaining_pos hlp (firstSites_injective h σ) (s := univ.filter (· < i)) (i := i) (by simp)

theorem exp_pafsLlBack {ns : ℕ} (h : ns ≤ D) {lp : Fin D → ℝ} (hlp : ∑ j, Real.exp (lp j) = 1)
    (σ : Equiv.Perm (Fin D)) :
    Real.exp (pafsLlBack lp ns σ) = pafsIdxLaw lp (fun i => firstSites h σ i.rev) := by
  set w : Fin D → WithBot ℝ := fun i => if orderMask ns σ (σ (Fin.rev i)) then
    ((lp (σ (Fin.rev i)) : ℝ) : WithBot ℝ) else ⊥ with hw
  have hom : ∀ i, orderMask ns σ (σ i) = decide ((i : ℕ) < ns) := by
    intro i; unfold orderMask; rw [Equiv.symm_apply_apply]
  have hexp : ∀ i, expE (w i) = if (Fin.rev i : ℕ) < ns then Real.exp (lp (σ (Fin.rev i))) else 0 := by
    intro i
    simp only [hw, hom]
    by_cases hi : (Fin.rev i : ℕ) < ns
    · simp only [hi, decide_true, if_true]; rfl
    · simp only [hi, decide_false, Bool.false_eq_true, if_false]; rfl
  have hsum : ∑ j, expE (w j) ≤ 1 := by
    rw [← hlp, ← Equiv.sum_comp (Fin.revPerm.trans σ) (fun j => Real.exp (lp j))]
    refine Finset.sum_le_sum fun i _ => ?_
    rw [hexp]
    split_ifs
    · exact le_rfl
    · exact (Real.exp_pos _).le
  have hinj : Function.Injective fun i : Fin ns => firstSites h σ i.rev :=
    fun _ _ e => Fin.rev_injective (firstSites_injective h σ e)
  have hmain : pafsLlBack lp ns σ = ∑ i : Fin ns, (lp (firstSites h σ i) -
      Real.log (1 - ∑ j ∈ univ.filter (i < ·), Real.exp (lp (firstSites h σ j)))) := by
    have e1 : pafsLlBack lp ns σ = ∑ i : Fin D, if (Fin.rev i : ℕ) < ns then
        lp (σ (Fin.rev i)) - Real.log (1 - ∑ j ∈ univ.filter (· < i), expE (w j)) else 0 := by
      unfold pafsLlBack
      refine Finset.sum_congr rfl fun i _ => ?_
      simp only [hom]
      by_cases hi : (Fin.rev i : ℕ) < ns
      · simp only [hi, decide_true, if_true]
        have hwi : w i = ((lp (σ (Fin.rev i)) : ℝ) : WithBot ℝ) := by
          simp only [hw, hom, hi, decide_true, if_true]
        have := renormalize_eq hsum hwi
        simp only [hw, hom] at this
        rw [this]
        simp only [hw, hom]
        rfl
      · simp only [hi, decide_false, Bool.false_eq_true, if_false]
    rw [e1, ← Equiv.sum_comp Fin.revPerm]
    simp only [Fin.revPerm_apply, Fin.rev_rev]
    rw [sum_castLE h (F := fun i => lp (σ i) - Real.log (1 - ∑ j ∈ univ.filter (· < Fin.rev i),
      expE (w j)))]
    refine Finset.sum_congr rfl fun i _ => ?_
    have e2 : ∑ j ∈ univ.filter (· < Fin.rev (Fin.castLE h i)), expE (w j) =
        ∑ j ∈ univ.filter (i < ·), Real.exp (lp (firstSites h σ j)) := by
      rw [Finset.sum_filter, ← Equiv.sum_comp Fin.revPerm]
      simp only [Fin.revPerm_apply, hexp, Fin.rev_rev, Fin.rev_lt_rev]
      rw [Finset.sum_filter]
      have e3 := sum_castLE h (fun j => if Fin.castLE h i < j then Real.exp (lp (σ j)) else 0)
      refine Eq.trans (Finset.sum_congr rfl fun j _ => ?_) e3
      split_ifs <;> rfl
    rw [e2]
    rfl
  rw [hmain, pafsIdxLaw_prod hlp hinj, Real.exp_sum, ← Equiv.prod_comp Fin.revPerm]
  refine Finset.prod_congr rfl fun i _ => ?_
  simp only [Fin.revPerm_apply]
  have e3 : ∑ j ∈ univ.filter (Fin.rev i < ·), Real.exp (lp (firstSites h σ j)) =
      ∑ j ∈ univ.filter (· < i), Real.exp (lp (firstSites h σ j.rev)) := by
    rw [Finset.sum_filter, Finset.sum_filter, ← Equiv.sum_comp Fin.revPerm]
    simp only [Fin.revPerm_apply, Fin.rev_lt_rev]
  rw [e3, Real.exp_sub, Real.exp_log]
  exact remaining_pos hlp hinj (i := i) (by simp)

/-! ## The first sites of a random order are drawn without replacement -/

section
variable {ι : Type*} [Fintype ι] [DecidableEq ι]

theorem seqDraw_append (p : ι → ℝ) (used : Finset ι) (l l' : List ι) :
    seqDraw p used (l ++ l') = seqDraw p used l * seqDraw p (used ∪ l.toFinset) l' := by
  induction l generalizing used with
  | nil => simp [seqDraw]
  | cons i l ih =>
    simp only [List.cons_append, seqDraw, ih, List.toFinset_cons, mul_assoc]
    congr 3
    ext a; simp

/-- Forgetting the later draws. -/
theorem sum_seqDraw_prefix {p : ι → ℝ} (hp : ∀ i, 0 < p i) {k m : ℕ} (hkm : k + m ≤ Fintype.card ι)
    (l : Fin k → ι) :
    ∑ ω : Fin (k + m) → ι, (if (fun i => ω (Fin.castAdd m i)) = l then
      seqDraw p ∅ (List.ofFn ω) else 0) = seqDraw p ∅ (List.ofFn l) := by
  rw [← (Fin.appendEquiv k m).sum_comp, Fintype.sum_prod_type]
  have e : ∀ (a : Fin k → ι) (b : Fin m → ι),
      (fun i => Fin.appendEquiv k m (a, b) (Fin.castAdd m i)) = a := by
    intro a b; funext i; simp [Fin.appendEquiv]
  have e2 : ∀ (a : Fin k → ι) (b : Fin m → ι), List.ofFn (Fin.appendEquiv k m (a, b)) =
      List.ofFn a ++ List.ofFn b := by
    intro a b; exact List.ofFn_fin_append a b
  simp only [e, e2, seqDraw_append]
  rw [Finset.sum_eq_single l]
  · simp only [if_true]
    rw [← Finset.mul_sum]
    by_cases h : seqDraw p ∅ (List.ofFn l) = 0
    · rw [h, zero_mul]
    · have hl := ((seqDraw_ne_zero_iff hp _ _).1 h).1
      have hc : (∅ ∪ (List.ofFn l).toFinset).card = k := by
        rw [Finset.empty_union, List.toFinset_card_of_nodup hl, List.length_ofFn]
      rw [sum_seqDraw hp m _ (by rw [hc]; exact hkm), mul_one]
  · intro a _ ha
    simp [ha]
  · intro h; exact absurd (mem_univ _) h

end

theorem sum_perm_eq {α : Type*} [Fintype α] [DecidableEq α] (F : (α → α) → ℝ)
    (hF : ∀ ω, ¬ Function.Injective ω → F ω = 0) :
    ∑ σ : Equiv.Perm α, F σ = ∑ ω : α → α, F ω := by
  classical
  rw [← Finset.sum_filter_add_sum_filter_not univ Function.Injective]
  rw [Finset.sum_eq_zero (s := univ.filter fun ω => ¬ Function.Injective ω)
    (fun ω hω => hF ω (mem_filter.1 hω).2), add_zero]
  refine Finset.sum_bij (fun (σ : Equiv.Perm α) _ => (σ : α → α)) ?_ ?_ ?_ ?_
  · intro σ _; exact mem_filter.2 ⟨mem_univ _, σ.injective⟩
  · intro σ _ τ _ h; exact Equiv.ext (congrFun h)
  · intro ω hω
    exact ⟨Equiv.ofBijective ω (Finite.injective_iff_bijective.1 (mem_filter.1 hω).2), mem_univ _, rfl⟩
  · intro σ _; rfl

theorem sum_pafsOrderLaw {ns : ℕ} (h : ns ≤ D) (lp : Fin D → ℝ) (idx : Fin ns → Fin D) :
    ∑ σ, (if firstSites h σ = idx then pafsOrderLaw lp σ else 0) = pafsIdxLaw lp idx := by
  have e1 := sum_perm_eq (fun ω : Fin D → Fin D => if (fun i => ω (Fin.castLE h i)) = idx then
    seqDraw (fun j => Real.exp (lp j)) ∅ (List.ofFn ω) else 0) (by
      intro ω hω
      split_ifs
      · by_contra hne
        exact hω (List.nodup_ofFn.1 ((seqDraw_ne_zero_iff (fun _ => Real.exp_pos _) _ _).1 hne).1)
      · rfl)
  refine e1.trans ?_
  have gen : ∀ (N : ℕ) (hN : ns ≤ N), N ≤ D →
      ∑ ω : Fin N → Fin D, (if (fun i => ω (Fin.castLE hN i)) = idx then
        seqDraw (fun j => Real.exp (lp j)) ∅ (List.ofFn ω) else 0) = pafsIdxLaw lp idx := by
    intro N hN hND
    obtain ⟨m, rfl⟩ := Nat.exists_eq_add_of_le hN
    exact sum_seqDraw_prefix (fun _ => Real.exp_pos _) (by simpa using hND) idx
  exact gen D h le_rfl

end Discs
