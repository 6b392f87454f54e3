import Verif.Lemmas.Trap
import Verif.Model.PathAuxRun
import Verif.Props.AnnealGWG
import Verif.Props.PathAux

/-!
# Lemmas on path-auxiliary steps of hot models
-/

namespace Discs

open Finset Spec

variable {D : ℕ}

/-- If no weight is more than `K` times another, two sequences of the same length are drawn with similar
probabilities. -/
theorem seqDraw_le_seqDraw {p q : Fin D → ℝ} {K : ℝ} (hp : ∀ j, 0 < p j) (hq : ∀ j, 0 < q j) (hK : 0 < K)
    (hpK : ∀ i j, p i ≤ K * p j) (hqK : ∀ i j, q i ≤ K * q j) : ∀ (l l' : List (Fin D)) (S S' : Finset (Fin D)),
      l.length = l'.length → S.card = S'.card → l'.Nodup → (∀ i ∈ l', i ∉ S') →
      seqDraw p S l ≤ (K * K) ^ l.length * seqDraw q S' l'
  | [], [], S, S', _, _, _, _ => by simp [seqDraw]
  | [], _ :: _, _, _, h, _, _, _ => by simp at h
  | _ :: _, [], _, _, h, _, _, _ => by simp at h
  | i :: l, i' :: l', S, S', hl, hS, hn, hd => by
    have hi' : i' ∉ S' := hd i' (by simp)
    have hq0 : ∀ (S : Finset (Fin D)) (l : List (Fin D)), 0 ≤ seqDraw q S l := by
      intro S l
      induction l generalizing S with
      | nil => simp [seqDraw]
      | cons a l ih =>
        rw [seqDraw]
        refine mul_nonneg ?_ (ih _)
        split_ifs
        · rfl
        · exact div_nonneg (hq a).le (Finset.sum_nonneg fun j _ => (hq j).le)
    have hp0 : ∀ (S : Finset (Fin D)) (l : List (Fin D)), 0 ≤ seqDraw p S l := by
      intro S l
      induction l generalizing S with
      | nil => simp [seqDraw]
      | cons a l ih =>
        rw [seqDraw]
        refine mul_nonneg ?_ (ih _)
        split_ifs
        · rfl
        · exact div_nonneg (hp a).le (Finset.sum_nonneg fun j _ => (hp j).le)
    by_cases hi : i ∈ S
    · rw [seqDraw, if_pos hi, zero_mul]
      exact mul_nonneg (by positivity) (hq0 _ _)
    · have ih := seqDraw_le_seqDraw hp hq hK hpK hqK l l' (insert i S) (insert i' S') (by simpa using hl)
        (by rw [card_insert_of_notMem hi, card_insert_of_notMem hi', hS]) (List.nodup_cons.1 hn).2 (by
          intro j hj
          rw [mem_insert, not_or]
          exact ⟨fun e => (List.nodup_cons.1 hn).1 (e ▸ hj), hd j (by simp [hj])⟩)
      have hcard : (univ \ S).card = (univ \ S').card := by
        rw [card_sdiff_of_subset (subset_univ _), card_sdiff_of_subset (subset_univ _), hS]
      have hpos : 0 < ((univ \ S).card : ℝ) := by
        have : 0 < (univ \ S).card := card_pos.2 ⟨i, by simp [hi]⟩
        exact_mod_cast this
      have h1 : ((univ \ S).card : ℝ) * p i ≤ K * ∑ j ∈ univ \ S, p j := by
        rw [Finset.mul_sum]
        calc ((univ \ S).card : ℝ) * p i = ∑ _j ∈ univ \ S, p i := by simp
          _ ≤ _ := Finset.sum_le_sum fun j _ => hpK i j
      have h2 : ∑ j ∈ univ \ S', q j ≤ ((univ \ S).card : ℝ) * (K * q i') := by
        rw [hcard]
        calc ∑ j ∈ univ \ S', q j ≤ ∑ _j ∈ univ \ S', K * q i' := Finset.sum_le_sum fun j _ => hqK j i'
          _ = _ := by simp
      have s1 : 0 < ∑ j ∈ univ \ S, p j := Finset.sum_pos (fun j _ => hp j) ⟨i, by simp [hi]⟩
      have s2 : 0 < ∑ j ∈ univ \ S', q j := Finset.sum_pos (fun j _ => hq j) ⟨i', by simp [hi']⟩
      have h3 : p i / ∑ j ∈ univ \ S, p j ≤ (K * K) * (q i' / ∑ j ∈ univ \ S', q j) := by
        have a1 : p i / ∑ j ∈ univ \ S, p j ≤ K / ((univ \ S).card : ℝ) := by
          rw [div_le_div_iff₀ s1 hpos]; linarith
        have a2 : 1 / ((univ \ S).card : ℝ) ≤ K * (q i' / ∑ j ∈ univ \ S', q j) := by
          rw [mul_div_assoc', div_le_div_iff₀ hpos s2]; linarith
        calc _ ≤ K * (1 / ((univ \ S).card : ℝ)) := by rw [mul_one_div]; exact a1
          _ ≤ K * (K * (q i' / ∑ j ∈ univ \ S', q j)) := mul_le_mul_of_nonneg_left a2 hK.le
          _ = _ := by ring
      rw [seqDraw, seqDraw, if_neg hi, if_neg hi', List.length_cons, pow_succ]
      calc (p i / ∑ j ∈ univ \ S, p j) * seqDraw p (insert i S) l
          ≤ (K * K * (q i' / ∑ j ∈ univ \ S', q j)) * ((K * K) ^ l.length * seqDraw q (insert i' S') l') :=
            mul_le_mul h3 ih (hp0 _ _) (by have := hq i'; positivity)
        _ = _ := by ring

/-- The log-acceptance of an adaptive path-auxiliary proposal on a hot model. -/
theorem pafs_hot_logAcc (hD : 0 < D) {name : String} {h : ℝ → ℝ} (hh : ∀ v, applyWeightLog name v = .ok (h v))
    {f : (Fin D → ℤ) → ℝ} {lr : (Fin D → ℤ) → Fin D → ℝ} {R G : ℝ} {x y : Fin D → ℤ} (hR : f x - f y ≤ R)
    (hG0 : 0 ≤ G) (hGx : ∀ j, |lr x j| ≤ G) (hGy : ∀ j, |lr y j| ≤ G) {ns : ℕ} (hn : ns ≤ D) (σ : Equiv.Perm (Fin D)) :
    -(R + 4 * G * D) ≤ f y + pafsLlBack (pafsLogProb h lr none y) ns σ - f x -
      ∑ j, pafsLlSel (pafsLogProb h lr none x) ns σ j := by
  have hs := sum_exp_pafsLogProb hD h lr none
  have hK : ∀ z, (∀ j, |lr z j| ≤ G) → ∀ i j, Real.exp (pafsLogProb h lr none z i) ≤
      Real.exp (2 * G) * Real.exp (pafsLogProb h lr none z j) := by
    intro z hz i j
    rw [← Real.exp_add]
    refine Real.exp_le_exp.2 ?_
    have h1 := applyWeightLog_lip hh (lr z i) (lr z j)
    have h2 := abs_sub (lr z i) (lr z j)
    have h3 := hz i
    have h4 := hz j
    unfold pafsLogProb logSoftmax applyMask
    dsimp only
    linarith
  have e1 := exp_sum_pafsLlSel hn (hs x) σ
  have e2 := exp_pafsLlBack hn (hs y) σ
  have hinj : Function.Injective fun i : Fin ns => firstSites hn σ i.rev :=
    fun _ _ e => Fin.rev_injective (firstSites_injective hn σ e)
  have key := seqDraw_le_seqDraw (p := fun j => Real.exp (pafsLogProb h lr none x j))
    (q := fun j => Real.exp (pafsLogProb h lr none y j)) (fun _ => Real.exp_pos _) (fun _ => Real.exp_pos _)
    (Real.exp_pos (2 * G)) (hK x hGx) (hK y hGy) (List.ofFn (firstSites hn σ))
    (List.ofFn fun i : Fin ns => firstSites hn σ i.rev) ∅ ∅ (by simp) rfl (List.nodup_ofFn.2 hinj) (by simp)
  change pafsIdxLaw _ _ ≤ _ * pafsIdxLaw _ _ at key
  rw [← e1, ← e2, List.length_ofFn, ← Real.exp_add, ← Real.exp_nat_mul, ← Real.exp_add, Real.exp_le_exp] at key
  have hns : (ns : ℝ) ≤ D := by exact_mod_cast hn
  have := mul_le_mul_of_nonneg_right hns (by positivity : 0 ≤ 2 * G + 2 * G)
  linarith

theorem numFlips_full : numFlips D (D : ℝ) = D := by
  unfold numFlips roundHalfEven
  simp

theorem maskFlip_full (x : Fin D → ℤ) (σ : Equiv.Perm (Fin D)) : maskFlip x (orderMask D σ) = complement x := by
  funext j
  unfold maskFlip orderMask complement
  simp

theorem maskFlip_valid {x : Fin D → ℤ} (hx : x ∈ validStates 2 D) (m : Fin D → Bool) :
    maskFlip x m ∈ validStates 2 D := by
  rw [mem_validStates_two] at hx ⊢
  intro j
  unfold maskFlip
  have := hx j
  cases m j <;> simp <;> omega

end Discs
