import Verif.Lemmas.PathAux
import Verif.Lemmas.Jax

/-!
# Helper lemmas: categorical paths
-/

namespace Discs

open Finset Spec

variable {D C : ℕ}

theorem setVals_sel {k : ℕ} (x : Fin D → ℤ) {idx : Fin k → Fin D} (hi : Function.Injective idx)
    (val : Fin k → Fin C) (i : Fin k) : setVals x idx val (idx i) = ((val i : ℕ) : ℤ) := by
  unfold setVals
  have h : ∃ i', idx i' = idx i := ⟨i, rfl⟩
  rw [dif_pos h, hi h.choose_spec]

theorem setVals_other {k : ℕ} (x : Fin D → ℤ) {idx : Fin k → Fin D} (val : Fin k → Fin C) {j : Fin D}
    (hj : ¬ ∃ i, idx i = j) : setVals x idx val j = x j := dif_neg hj

theorem setVals_valid {k : ℕ} {x : Fin D → ℤ} (hx : x ∈ validStates C D) (idx : Fin k → Fin D)
    (val : Fin k → Fin C) : setVals x idx val ∈ validStates C D := by
  rw [mem_validStates] at *
  intro j
  unfold setVals
  split_ifs with h
  · have := (val h.choose).2
    exact ⟨by positivity, by exact_mod_cast this⟩
  · exact hx j

theorem maskSet_eq {ns : ℕ} (h : ns ≤ D) (x : Fin D → ℤ) (σ : Equiv.Perm (Fin D)) (v : Fin D → Fin C) :
    maskSet x (orderMask ns σ) v = setVals x (firstSites h σ) (fun i => v (firstSites h σ i)) := by
  funext j
  unfold maskSet
  by_cases hj : ∃ i, firstSites h σ i = j
  · rw [(orderMask_iff h σ j).2 hj, if_pos rfl]
    obtain ⟨i, rfl⟩ := hj
    rw [setVals_sel x (firstSites_injective h σ)]
  · rw [setVals_other x _ hj, if_neg]
    rw [orderMask_iff h]; exact hj

/-! ## Local distributions -/

theorem exp_logsumexp [Nonempty (Fin C)] (l : Fin C → ℝ) :
    Real.exp (logsumexp l) = ∑ c, Real.exp (l c) := Real.exp_log (sum_exp_pos l)

theorem sum_exp_pafsSite (hC : 0 < C) {lp : Fin D × Fin C → ℝ} (hlp : ∑ jc, Real.exp (lp jc) = 1) :
    ∑ j, Real.exp (pafsSite lp j) = 1 := by
  have : Nonempty (Fin C) := ⟨⟨0, hC⟩⟩
  rw [← hlp, Fintype.sum_prod_type]
  exact Finset.sum_congr rfl fun j _ => exp_logsumexp _

theorem sum_exp_logSoftmax {I : Type*} [Fintype I] [Nonempty I] (l : I → ℝ) :
    ∑ i, Real.exp (logSoftmax l i) = 1 := by
  simp only [exp_logSoftmax]
  exact (isProb_softmax l).2

theorem exp_pafsVal (hC : 0 < C) (lp : Fin D × Fin C → ℝ) (j : Fin D) (c : Fin C) :
    Real.exp (pafsVal lp j c) = softmax (pafsVal lp j) c := by
  have : Nonempty (Fin C) := ⟨⟨0, hC⟩⟩
  unfold pafsVal
  rw [exp_logSoftmax, softmax_logSoftmax]

theorem sum_oneHot (v : Fin C) (F : Fin C → ℝ) :
    ∑ c, oneHot C ((v : ℕ) : ℤ) c * F c = F v := by
  rw [Finset.sum_eq_single v]
  · simp [oneHot]
  · intro c _ hc
    have : ¬ ((v : ℕ) : ℤ) = ((c : ℕ) : ℤ) := fun h => hc (Fin.ext (by exact_mod_cast h.symm))
    unfold oneHot
    rw [if_neg, zero_mul]
    first
      | exact this
      | exact fun h => this h.symm
  · intro h; exact absurd (mem_univ _) h

theorem sum_oneHotRow (hC : 0 < C) {x : Fin D → ℤ} (hx : x ∈ validStates C D) (j : Fin D)
    (F : Fin C → ℝ) : ∑ c, oneHotRow C x j c * F c = F (toCateg hC x j) := by
  have e : x j = ((toCateg hC x j : ℕ) : ℤ) := (congrFun (categRow_toCateg hC hx) j).symm
  unfold oneHotRow
  rw [e]
  exact sum_oneHot _ _

/-! ## The path chain -/

/-- Probability of a path: sites one after another without replacement, a value at each of them. -/
theorem isProb_pafsCategLaw (hC : 0 < C) {k : ℕ} (hk : k ≤ D) (lp : Fin D × Fin C → ℝ) :
    IsProb (pafsCategLaw (k := k) lp) := by
  have : Nonempty (Fin C) := ⟨⟨0, hC⟩⟩
  have hi := isProb_pafsIdxLaw hk (pafsSite lp)
  refine ⟨fun w => mul_nonneg (hi.1 _) (Finset.prod_nonneg fun i _ => (softmax_pos _ _).le), ?_⟩
  rw [Fintype.sum_prod_type]
  refine Eq.trans (Finset.sum_congr rfl fun idx _ => ?_) hi.2
  unfold pafsCategLaw
  dsimp only
  rw [← Finset.mul_sum]
  have := (isProb_pi (p := fun (i : Fin k) c => softmax (pafsVal lp (idx i)) c)
    fun i => isProb_softmax _).2
  rw [this, mul_one]

theorem pafsCategLaw_ne_zero {k : ℕ} {lp : Fin D × Fin C → ℝ} {w : (Fin k → Fin D) × (Fin k → Fin C)}
    (h : pafsCategLaw lp w ≠ 0) : Function.Injective w.1 :=
  pafsIdxLaw_ne_zero (left_ne_zero_of_mul h)

theorem pafsCategLaw_pos (hC : 0 < C) {k : ℕ} (lp : Fin D × Fin C → ℝ)
    {w : (Fin k → Fin D) × (Fin k → Fin C)} (h : Function.Injective w.1) : 0 < pafsCategLaw lp w := by
  have : Nonempty (Fin C) := ⟨⟨0, hC⟩⟩
  refine mul_pos ?_ (Finset.prod_pos fun i _ => softmax_pos _ _)
  refine lt_of_le_of_ne (seqDraw_nonneg (fun _ => (Real.exp_pos _).le) _ _) (Ne.symm ?_)
  unfold pafsIdxLaw
  rw [seqDraw_ne_zero_iff fun _ => Real.exp_pos _]
  exact ⟨List.nodup_ofFn.2 h, by simp⟩

/-- The reversed path: sites in opposite order, with the old values. -/
def pathRev {k : ℕ} (hC : 0 < C) (x : Fin D → ℤ) (w : (Fin k → Fin D) × (Fin k → Fin C)) :
    (Fin k → Fin D) × (Fin k → Fin C) :=
  (fun i => w.1 i.rev, fun i => toCateg hC x (w.1 i.rev))

/-- The true log acceptance ratio of a path. -/
noncomputable def pathLogAcc {k : ℕ} (hC : 0 < C) (f : (Fin D → ℤ) → ℝ)
    (lp : (Fin D → ℤ) → Fin D × Fin C → ℝ) (x : Fin D → ℤ) (w : (Fin k → Fin D) × (Fin k → Fin C)) : ℝ :=
  f (setVals x w.1 w.2) + Real.log (pafsCategLaw (lp (setVals x w.1 w.2)) (pathRev hC x w)) - f x -
    Real.log (pafsCategLaw (lp x) w)

theorem setVals_back {k : ℕ} (hC : 0 < C) {x : Fin D → ℤ} (hx : x ∈ validStates C D)
    {w : (Fin k → Fin D) × (Fin k → Fin C)} (hw : Function.Injective w.1) :
    setVals (setVals x w.1 w.2) (pathRev hC x w).1 (pathRev hC x w).2 = x := by
  have hr : Function.Injective (pathRev hC x w).1 := fun _ _ e => Fin.rev_injective (hw e)
  funext j
  by_cases hj : ∃ i, w.1 i = j
  · obtain ⟨i, rfl⟩ := hj
    have e : w.1 i = (pathRev hC x w).1 i.rev := by simp [pathRev]
    rw [e, setVals_sel _ hr]
    exact congrFun (categRow_toCateg hC hx) _
  · have hj' : ¬ ∃ i, (pathRev hC x w).1 i = j := fun ⟨i, h⟩ => hj ⟨i.rev, h⟩
    rw [setVals_other _ _ hj', setVals_other _ _ hj]

theorem pathRev_invol {k : ℕ} (hC : 0 < C) (x : Fin D → ℤ)
    {w : (Fin k → Fin D) × (Fin k → Fin C)} (hw : Function.Injective w.1) :
    pathRev hC (setVals x w.1 w.2) (pathRev hC x w) = w := by
  refine Prod.ext (funext fun i => by simp [pathRev]) (funext fun i => ?_)
  show toCateg hC (setVals x w.1 w.2) (w.1 (Fin.rev (Fin.rev i))) = w.2 i
  rw [Fin.rev_rev]
  ext
  show (setVals x w.1 w.2 (w.1 i)).toNat % C = w.2 i
  rw [setVals_sel x hw, Int.toNat_natCast, Nat.mod_eq_of_lt (w.2 i).2]

theorem path_pathMH (hC : 0 < C) {k : ℕ} (hk : k ≤ D) (f : (Fin D → ℤ) → ℝ)
    (lp : (Fin D → ℤ) → Fin D × Fin C → ℝ) :
    PathMH (validStates C D) (fun x => Real.exp (f x)) (fun x => pafsCategLaw (k := k) (lp x))
      (fun x w => setVals x w.1 w.2) (pathRev hC) (pathLogAcc hC f lp) := by
  have hr : ∀ (x : Fin D → ℤ) (w : (Fin k → Fin D) × (Fin k → Fin C)), Function.Injective w.1 →
      Function.Injective (pathRev hC x w).1 := fun x w hw _ _ e => Fin.rev_injective (hw e)
  exact {
    pi_pos := fun _ _ => Real.exp_pos _
    prob := fun x _ => isProb_pafsCategLaw hC hk _
    closed := fun x hx w _ => setVals_valid hx _ _
    back := fun x hx w hq _ => setVals_back hC hx (pafsCategLaw_ne_zero hq)
    invol := fun x _ w hq _ => pathRev_invol hC x (pafsCategLaw_ne_zero hq)
    ratio := fun x _ w hq _ => by
      have hw := pafsCategLaw_ne_zero hq
      unfold pathLogAcc
      rw [Real.exp_sub, Real.exp_sub, Real.exp_add, Real.exp_log (pafsCategLaw_pos hC _ hw),
        Real.exp_log (pafsCategLaw_pos hC _ (hr x w hw))]
      have h1 := pafsCategLaw_pos hC (lp x) hw
      have h2 := Real.exp_pos (f x)
      field_simp
    antisymm := fun x hx w hq _ => by
      have hw := pafsCategLaw_ne_zero hq
      unfold pathLogAcc
      rw [setVals_back hC hx hw, pathRev_invol hC x hw]; ring }

/-! ## Forgetting the values at unselected sites -/

theorem sum_values {k : ℕ} {p : Fin D → Fin C → ℝ} (hp : ∀ j, ∑ c, p j c = 1) {idx : Fin k → Fin D}
    (hi : Function.Injective idx) (val : Fin k → Fin C) :
    ∑ v : Fin D → Fin C, (if (fun i => v (idx i)) = val then ∏ j, p j (v j) else 0) =
      ∏ i, p (idx i) (val i) := by
  classical
  have e : ∀ v : Fin D → Fin C, (if (fun i => v (idx i)) = val then ∏ j, p j (v j) else 0) =
      ∏ j, (if ∀ i, idx i = j → v j = val i then p j (v j) else 0) := by
    intro v
    by_cases hv : (fun i => v (idx i)) = val
    · rw [if_pos hv]
      refine Finset.prod_congr rfl fun j _ => ?_
      rw [if_pos]
      rintro i rfl
      exact congrFun hv i
    · rw [if_neg hv]
      have : ∃ i, v (idx i) ≠ val i := by
        by_contra hn; push Not at hn; exact hv (funext hn)
      obtain ⟨i, hne⟩ := this
      refine (Finset.prod_eq_zero (mem_univ (idx i)) ?_).symm
      rw [if_neg]
      exact fun h => hne (h i rfl)
  simp only [e]
  rw [← Fintype.prod_sum (f := fun (j : Fin D) (c : Fin C) =>
    if ∀ i, idx i = j → c = val i then p j c else 0)]
  have e2 : ∏ i, p (idx i) (val i) = ∏ j ∈ univ.map ⟨idx, hi⟩,
      (∑ c, if ∀ i, idx i = j → c = val i then p j c else 0) := by
    rw [Finset.prod_map]
    refine Finset.prod_congr rfl fun i _ => ?_
    rw [Finset.sum_eq_single (val i)]
    · rw [if_pos]
      · rfl
      · intro i' h; rw [hi h]
    · intro c _ hc
      rw [if_neg]
      exact fun h => hc (h i rfl)
    · intro h; exact absurd (mem_univ _) h
  rw [e2]
  refine (Finset.prod_subset (Finset.subset_univ _) fun j _ hj => ?_).symm
  refine Eq.trans (Finset.sum_congr rfl fun c _ => if_pos ?_) (hp j)
  intro i h
  exact absurd (Finset.mem_map.2 ⟨i, mem_univ _, h⟩) hj

theorem sum_pafsCategAdaptiveLaw (hC : 0 < C) {ns : ℕ} (h : ns ≤ D) (lp : Fin D × Fin C → ℝ)
    (w' : (Fin ns → Fin D) × (Fin ns → Fin C)) :
    ∑ w : Equiv.Perm (Fin D) × (Fin D → Fin C),
      (if (firstSites h w.1, fun i => w.2 (firstSites h w.1 i)) = w' then
        pafsCategAdaptiveLaw lp w else 0) = pafsCategLaw lp w' := by
  have : Nonempty (Fin C) := ⟨⟨0, hC⟩⟩
  rw [Fintype.sum_prod_type]
  unfold pafsCategLaw
  rw [← sum_pafsOrderLaw h, Finset.sum_mul]
  refine Finset.sum_congr rfl fun σ _ => ?_
  by_cases hσ : firstSites h σ = w'.1
  · rw [if_pos hσ]
    rw [← sum_values (p := fun j => softmax (pafsVal lp j)) (fun j => (isProb_softmax _).2)
      (hσ ▸ firstSites_injective h σ) w'.2, Finset.mul_sum]
    refine Finset.sum_congr rfl fun v _ => ?_
    by_cases hv : (fun i => v (w'.1 i)) = w'.2
    · rw [if_pos hv, if_pos]
      · rfl
      · exact Prod.ext hσ (by rw [← hv, ← hσ])
    · rw [if_neg hv, if_neg, mul_zero]
      intro e
      rw [← e] at hv
      exact hv rfl
  · rw [if_neg hσ, zero_mul]
    refine Finset.sum_eq_zero fun v _ => if_neg ?_
    intro e
    exact hσ (congrArg Prod.fst e)

/-! ## The log-likelihoods the code computes -/

theorem sum_masked {ns : ℕ} (h : ns ≤ D) (σ : Equiv.Perm (Fin D)) (F : Fin D → ℝ) :
    ∑ j, F j * (if orderMask ns σ j then 1 else 0) = ∑ i : Fin ns, F (firstSites h σ i) := by
  rw [← Equiv.sum_comp σ]
  refine Eq.trans (Finset.sum_congr rfl fun i _ => ?_) (sum_castLE h fun i => F (σ i))
  unfold orderMask
  rw [Equiv.symm_apply_apply]
  by_cases hi : (i : ℕ) < ns <;> simp [hi]

theorem log_pafsCategLaw (hC : 0 < C) {k : ℕ} (lp : Fin D × Fin C → ℝ)
    {w : (Fin k → Fin D) × (Fin k → Fin C)} (hw : Function.Injective w.1) :
    Real.log (pafsCategLaw lp w) =
      Real.log (pafsIdxLaw (pafsSite lp) w.1) + ∑ i, pafsVal lp (w.1 i) (w.2 i) := by
  have : Nonempty (Fin C) := ⟨⟨0, hC⟩⟩
  have hp := pafsCategLaw_pos hC lp hw
  unfold pafsCategLaw at *
  rw [Real.log_mul (left_ne_zero_of_mul hp.ne') (right_ne_zero_of_mul hp.ne')]
  congr 1
  rw [Real.log_prod fun i _ => (softmax_pos _ _).ne']
  refine Finset.sum_congr rfl fun i _ => ?_
  rw [← exp_pafsVal hC, Real.log_exp]

theorem log_pafsRev (hC : 0 < C) {k : ℕ} (lp : Fin D × Fin C → ℝ) (x : Fin D → ℤ)
    {w : (Fin k → Fin D) × (Fin k → Fin C)} (hw : Function.Injective w.1) :
    Real.log (pafsCategLaw lp (pathRev hC x w)) =
      Real.log (pafsIdxLaw (pafsSite lp) fun i => w.1 i.rev) +
        ∑ i, pafsVal lp (w.1 i) (toCateg hC x (w.1 i)) := by
  rw [log_pafsCategLaw hC lp (w := pathRev hC x w) fun _ _ e => Fin.rev_injective (hw e)]
  congr 1
  rw [← Equiv.sum_comp Fin.revPerm]
  simp [pathRev]

end Discs
