import Verif.Lemmas.MH
import Verif.Lemmas.Draws
import Mathlib.Data.List.Sort
import Mathlib.Algebra.BigOperators.Fin
import Mathlib.Algebra.BigOperators.WithTop
import Mathlib.Algebra.BigOperators.Intervals

/-!
# Properties C13, C14, C22, C23, C24: `math_util`
-/

namespace Discs

open Finset Spec MeasureTheory

/-! ## C13: the acceptance test -/

/-- C13: on uniform noise the test succeeds with probability `exp(log_prob) - 1e-24` clipped to
`[0, 1]`. -/
theorem bernoulliLogp_prob (lp : ℝ) :
    (volume {u : ℝ | u ∈ Set.Ico (0 : ℝ) 1 ∧ bernoulliLogp mhTiny u lp}).toReal =
      max 0 (min 1 (Real.exp lp - 1e-24)) :=
  volume_accept mhTiny_nonneg lp

/-- C13: this is within `1e-24` of the Metropolis probability `min(1, exp(log_prob))`. -/
theorem bernoulliLogp_close (lp : ℝ) :
    |(volume {u : ℝ | u ∈ Set.Ico (0 : ℝ) 1 ∧ bernoulliLogp mhTiny u lp}).toReal -
      min 1 (Real.exp lp)| ≤ 1e-24 := by
  rw [volume_accept mhTiny_nonneg, ← acceptProb_zero]
  exact acceptProb_close mhTiny_nonneg lp

/-- C13: a larger log-probability accepts on every noise value a smaller one accepts on. -/
theorem bernoulliLogp_mono {tiny u a b : ℝ} (hab : a ≤ b) (h : bernoulliLogp tiny u a) :
    bernoulliLogp tiny u b := lt_of_lt_of_le h hab

/-- Instance for C13: at `log_prob = log(1/2)` the acceptance probability is neither 0 nor 1. -/
example : max 0 (min 1 (Real.exp (Real.log (1 / 2)) - 1e-24)) = (1 / 2 - 1e-24 : ℝ) := by
  rw [Real.exp_log (by norm_num)]; norm_num

/-! ## C14: selection -/

/-- C14: row `b` of the result is the proposal of row `b` exactly when row `b`'s own flag is set, and
the current row otherwise; the flag depends on row `b`'s noise and log-probability only. -/
theorem mhStep_row {B : ℕ} {X : Type*} (tiny : ℝ) (u l : Fin B → ℝ) (x y : Fin B → X) (b : Fin B) :
    ((mhStep tiny u l x y).2 b ↔ bernoulliLogp tiny (u b) (l b)) ∧
    ((mhStep tiny u l x y).2 b → (mhStep tiny u l x y).1 b = y b) ∧
    (¬ (mhStep tiny u l x y).2 b → (mhStep tiny u l x y).1 b = x b) :=
  ⟨Iff.rfl, fun h => mhStep_accept h, fun h => mhStep_reject h⟩

/-- Instance for C14: a batch of two rows of which one accepts and one rejects. -/
example : (mhStep 0 ![1/2, 1/2] ![0, -10] ![![0, 0], ![1, 1]] ![![5, 5], ![6, 6]]).1
    = ![![5, 5], ![1, (1 : ℤ)]] := by
  funext b
  fin_cases b
  · refine mhStep_accept ?_
    show Real.log (1 / 2 + 0) < 0
    exact Real.log_neg (by norm_num) (by norm_num)
  · refine mhStep_reject ?_
    show ¬ Real.log (1 / 2 + 0) < -10
    rw [add_zero, not_lt, Real.le_log_iff_exp_le (by norm_num)]
    have : Real.exp (-10) ≤ Real.exp (-1) := Real.exp_le_exp.2 (by norm_num)
    have h1 : Real.exp (-1) ≤ 1 / 2 := by
      rw [Real.exp_neg]
      have := Real.add_one_le_exp (1 : ℝ)
      rw [inv_le_comm₀ (by positivity) (by norm_num)]
      linarith
    linarith

/-! ## C22: log-likelihood of draws without replacement -/

/-- C22: whatever the scores (also when they are not normalised, or the entries before exhaust the whole mass), the
renormalised entries are logarithms of numbers at most 1. -/
theorem renormalize_nonpos {n : ℕ} (ll : Fin n → WithBot ℝ) (i : Fin n) :
    renormalize ll i ≤ ((0 : ℝ) : WithBot ℝ) := by
  have h : ∀ a b : WithBot ℝ, subClip a b ≤ ((0 : ℝ) : WithBot ℝ) := by
    intro a b
    induction b with
    | bot => exact le_rfl
    | coe b =>
      induction a with
      | bot => exact bot_le
      | coe a => exact WithBot.coe_le_coe.2 (min_le_right _ _)
  exact h _ _

/-- C22: once the entries before have used up the whole mass, a further (finite) score counts as certain: its entry
is 0.  In exact arithmetic a normalised vector never gets here; in single precision it does, because the masked sites of
`path_auxiliary.py` (score -1e9) have probability 0. -/
theorem renormalize_exhausted {n : ℕ} {ll : Fin n → WithBot ℝ} {i : Fin n} {a : ℝ} (ha : ll i = (a : WithBot ℝ))
    (h : ∑ j ∈ univ.filter (· < i), expE (ll j) = 1) : renormalize ll i = ((0 : ℝ) : WithBot ℝ) := by
  have hsplit : ∑ j ∈ univ.filter (· ≤ i), expE (ll j) = 1 + expE (ll i) := by
    have : (univ.filter (· ≤ i) : Finset (Fin n)) = insert i (univ.filter (· < i)) := by
      ext j; simp [le_iff_lt_or_eq, or_comm]
    rw [this, Finset.sum_insert (by simp), h, add_comm]
  unfold renormalize
  simp only
  set b := (univ.sup ll).unbotD 0
  have hdelta : (logE ((∑ j ∈ univ.filter (· ≤ i), expE ((ll j).map (· - b))) -
      expE ((ll i).map (· - b)))).map (· + b) = ((0 : ℝ) : WithBot ℝ) := by
    simp only [expE_map_sub]
    rw [← Finset.sum_mul, hsplit]
    have : (1 + expE (ll i)) * Real.exp (-b) - expE (ll i) * Real.exp (-b) = Real.exp (-b) := by ring
    rw [this, logE, if_neg (Real.exp_pos _).ne', Real.log_exp]
    show ((-b + b : ℝ) : WithBot ℝ) = _
    rw [neg_add_cancel]
  rw [hdelta, log1mexp_zero, ha]
  rfl

/-- The mass is exhausted before the second entry, whose score is 3: the entry is 0. -/
example : renormalize ![((0 : ℝ) : WithBot ℝ), ((3 : ℝ) : WithBot ℝ)] 1 = ((0 : ℝ) : WithBot ℝ) := by
  refine renormalize_exhausted (a := 3) rfl ?_
  have : (univ.filter (· < (1 : Fin 2)) : Finset (Fin 2)) = {0} := by decide
  rw [this, Finset.sum_singleton]
  exact Real.exp_zero

/-- C22: for normalised log-probabilities of a positive distribution and distinct indices in draw
order, the renormalised log-likelihoods sum to the log-probability of drawing exactly that sequence
one element after another without replacement. -/
theorem renormalize_eq_seqDraw {n k : ℕ} {p : Fin n → ℝ} (hp : ∀ i, 0 < p i) (hp1 : ∑ i, p i = 1)
    {idx : Fin k → Fin n} (hidx : Function.Injective idx) :
    ∑ i, renormalize (fun i => ((Real.log (p (idx i)) : ℝ) : WithBot ℝ)) i =
      ((Real.log (seqDraw p ∅ (List.ofFn idx)) : ℝ) : WithBot ℝ) := by
  obtain ⟨r, hr, he⟩ := renormalize_sum hp hp1 hidx
  rw [hr, ← he, Real.log_exp, WithBot.coe_sum]

/-- C22: the sequences of length `k` have total probability one. -/
theorem seqDraw_total {n k : ℕ} (hk : k ≤ n) {p : Fin n → ℝ} (hp : ∀ i, 0 < p i) :
    ∑ idx : Fin k → Fin n, seqDraw p ∅ (List.ofFn idx) = 1 :=
  (isProb_seqDraw hp (by simpa using hk)).2

/-- C22: sequences with a repeated index have probability zero. -/
theorem seqDraw_repeat {n k : ℕ} {p : Fin n → ℝ} (hp : ∀ i, 0 < p i) {idx : Fin k → Fin n}
    (h : ¬ Function.Injective idx) : seqDraw p ∅ (List.ofFn idx) = 0 := by
  by_contra hne
  exact h (List.nodup_ofFn.1 ((seqDraw_ne_zero_iff hp _ _).1 hne).1)

/-- Instance for C22: three classes with probabilities 1/2, 1/3, 1/6, drawing class 2 then class 0:
probability `1/6 * (1/2) / (5/6) = 1/10`. -/
example : seqDraw (![1/2, 1/3, 1/6] : Fin 3 → ℝ) ∅ [2, 0] = 1/10 := by
  have h1 : (univ \ ∅ : Finset (Fin 3)) = univ := by decide
  have h2 : (univ \ insert 2 ∅ : Finset (Fin 3)) = {0, 1} := by decide
  simp only [seqDraw, h1, h2]
  rw [Fin.sum_univ_three, Finset.sum_pair (by decide), if_neg (by decide), if_neg (by decide)]
  simp only [Matrix.cons_val]
  norm_num

/-! ## C23: counting draws -/

theorem countLoop_eq {n : ℕ} (bs : ℕ) (hbs : 0 < bs) (num : ℕ) (draws : ℕ → Fin bs → Fin n)
    (t cnt : ℕ) (total : Fin n → ℕ) (hcnt : cnt = t * bs) (c : Fin n) :
    countLoop bs hbs num draws t cnt total c = total c +
      ∑ k ∈ Finset.Ico cnt num, if draws (k / bs) ⟨k % bs, Nat.mod_lt _ hbs⟩ = c then 1 else 0 := by
  induction t, cnt, total using countLoop.induct bs hbs num draws with
  | case1 t cnt total hlt ih =>
    simp only [dite_eq_ite] at ih
    unfold countLoop
    rw [if_pos hlt, ih (by rw [hcnt]; ring), add_assoc]
    congr 1
    have hblock : ∑ k : Fin bs, (if draws t k = c then 1 else 0) *
        (if (k : ℕ) + cnt < num then 1 else 0) =
        ∑ k ∈ Finset.Ico cnt (min (cnt + bs) num),
          if draws (k / bs) ⟨k % bs, Nat.mod_lt _ hbs⟩ = c then 1 else 0 := by
      have e1 : ∑ k : Fin bs, (if draws t k = c then 1 else 0) *
          (if (k : ℕ) + cnt < num then 1 else 0) =
          ∑ k ∈ Finset.range bs, if cnt + k < num then
            (if draws ((cnt + k) / bs) ⟨(cnt + k) % bs, Nat.mod_lt _ hbs⟩ = c then 1 else 0) else 0 := by
        rw [← Fin.sum_univ_eq_sum_range (fun k => if cnt + k < num then
            (if draws ((cnt + k) / bs) ⟨(cnt + k) % bs, Nat.mod_lt _ hbs⟩ = c then 1 else 0) else 0)]
        refine Finset.sum_congr rfl fun k _ => ?_
        have hd : (cnt + (k : ℕ)) / bs = t := by
          rw [hcnt, add_comm, Nat.add_mul_div_right _ _ hbs, Nat.div_eq_of_lt k.2, zero_add]
        have hm : (⟨(cnt + (k : ℕ)) % bs, Nat.mod_lt _ hbs⟩ : Fin bs) = k := by
          apply Fin.ext
          show (cnt + (k : ℕ)) % bs = k
          rw [hcnt, add_comm, Nat.add_mul_mod_self_right, Nat.mod_eq_of_lt k.2]
        rw [hd, hm, add_comm cnt]
        split_ifs <;> rfl
      rw [e1, ← Finset.sum_filter]
      rw [Finset.sum_Ico_eq_sum_range]
      refine Finset.sum_congr ?_ fun _ _ => rfl
      ext k
      simp only [Finset.mem_filter, Finset.mem_range]
      omega
    rw [hblock]
    rcases le_total (cnt + bs) num with h | h
    · rw [min_eq_left h]
      exact Finset.sum_Ico_consecutive _ (by omega) h
    · rw [min_eq_right h, Finset.Ico_eq_empty_of_le h, Finset.sum_empty, add_zero]
  | case2 t cnt total hge =>
    unfold countLoop
    rw [if_neg hge, Finset.Ico_eq_empty_of_le (by omega), Finset.sum_empty, add_zero]

/-- C23: whatever the internal batch size, the count of a class is the number of times it occurs among
the first `num` draws. -/
theorem multinomialCounts_eq {n : ℕ} (bs : ℕ) (hbs : 0 < bs) (num : ℕ) (draws : ℕ → Fin bs → Fin n)
    (c : Fin n) :
    multinomialCounts bs hbs num draws c =
      ((Finset.range num).filter fun k => draws (k / bs) ⟨k % bs, Nat.mod_lt _ hbs⟩ = c).card := by
  unfold multinomialCounts
  rw [countLoop_eq _ _ _ _ _ _ _ (by simp), zero_add, Finset.card_filter, Finset.range_eq_Ico]

/-- C23: the counts of a row sum to `num`. -/
theorem multinomialCounts_sum {n : ℕ} (bs : ℕ) (hbs : 0 < bs) (num : ℕ)
    (draws : ℕ → Fin bs → Fin n) : ∑ c, multinomialCounts bs hbs num draws c = num := by
  simp only [multinomialCounts_eq]
  rw [← Finset.card_eq_sum_card_fiberwise (t := univ) (f := fun k =>
    draws (k / bs) ⟨k % bs, Nat.mod_lt _ hbs⟩) (fun _ _ => Finset.mem_coe.2 (Finset.mem_univ _)),
    Finset.card_range]

/-- Instance for C23: five draws in batches of two; the sixth draw is masked out. -/
example : (fun c => multinomialCounts (n := 3) 2 (by decide) 5
    (fun t k => if t = 2 then ![1, 2] k else ![0, 1] k) c) = ![2, 3, 0] := by
  funext c
  rw [multinomialCounts_eq]
  revert c
  decide

/-! ## C24: draws without replacement by perturbed scores -/

theorem topK_full {n : ℕ} (g : Fin n → ℝ) :
    let L := topK g n
    L.Nodup ∧ L.length = n ∧ L.Pairwise (fun a b => g b ≤ g a) ∧ (∀ i, i ∈ L) := by
  classical
  have hperm : List.Perm ((List.finRange n).mergeSort (fun a b => decide (g b ≤ g a)))
      (List.finRange n) := List.mergeSort_perm _ _
  have hlen := hperm.length_eq
  rw [List.length_finRange] at hlen
  have hL : topK g n = (List.finRange n).mergeSort (fun a b => decide (g b ≤ g a)) := by
    unfold topK; exact List.take_of_length_le hlen.le
  simp only [hL]
  refine ⟨hperm.nodup_iff.2 (List.nodup_finRange n), hlen, ?_, fun i => hperm.mem_iff.2 (List.mem_finRange i)⟩
  have := List.pairwise_mergeSort (le := fun a b => decide (g b ≤ g a)) (l := List.finRange n)
    (fun a b c h1 h2 => by simp at *; exact h2.trans h1)
    (fun a b => by simpa using le_total _ _)
  simpa using this

theorem topK_eq_take {n : ℕ} (g : Fin n → ℝ) (k : ℕ) : topK g k = (topK g n).take k := by
  classical
  have hlen := (List.mergeSort_perm (List.finRange n) (fun a b => decide (g b ≤ g a))).length_eq
  rw [List.length_finRange] at hlen
  unfold topK
  rw [List.take_of_length_le (i := n) hlen.le]

/-- C24 (index form): `k` pairwise distinct indices, in non-increasing order of perturbed score, none
of which scores below an index left out. -/
theorem topK_spec {n : ℕ} (g : Fin n → ℝ) {k : ℕ} (hk : k ≤ n) :
    (topK g k).Nodup ∧ (topK g k).length = k ∧ (topK g k).Pairwise (fun a b => g b ≤ g a) ∧
      ∀ i ∈ topK g k, ∀ j, j ∉ topK g k → g j ≤ g i := by
  obtain ⟨h1, h2, h3, h4⟩ := topK_full g
  rw [topK_eq_take]
  refine ⟨h1.sublist (List.take_sublist _ _), by rw [List.length_take]; omega,
    h3.sublist (List.take_sublist _ _), fun i hi j hj => ?_⟩
  have hj' : j ∈ (topK g n).drop k := by
    have := h4 j
    rw [← List.take_append_drop k (topK g n), List.mem_append] at this
    exact this.resolve_left hj
  rw [← List.take_append_drop k (topK g n), List.pairwise_append] at h3
  exact h3.2.2 i hi j hj'

theorem sortAsc_eq {n : ℕ} (g : Fin n → ℝ) : sortAsc g = ((topK g n).map g).reverse := by
  classical
  obtain ⟨h1, h2, h3, h4⟩ := topK_full g
  unfold sortAsc
  refine List.Perm.eq_of_pairwise (le := (· ≤ ·)) (fun _ _ _ _ h1 h2 => le_antisymm h1 h2) ?_ ?_ ?_
  · have := List.pairwise_mergeSort (le := fun a b : ℝ => decide (a ≤ b))
      (l := (List.finRange n).map g) (fun a b c h1 h2 => by simp at *; exact h1.trans h2)
      (fun a b => by simpa using le_total _ _)
    simpa using this
  · rw [List.pairwise_reverse, List.pairwise_map]; exact h3
  · refine (List.mergeSort_perm _ _).trans (List.Perm.trans ?_ (List.reverse_perm _).symm)
    refine List.Perm.map g ?_
    rw [List.perm_ext_iff_of_nodup (List.nodup_finRange n) h1]
    intro a; simp [h4 a]

/-- The threshold of the mask form is the score of the `k`-th best index. -/
theorem selectedMask_eq {n : ℕ} (g : Fin n → ℝ) {k : ℕ} (hk1 : 1 ≤ k) (hk : k ≤ n) :
    ∃ h : k - 1 < (topK g n).length,
      selectedMask g k = some fun i => g ((topK g n)[k - 1]) ≤ g i := by
  obtain ⟨h1, h2, h3, h4⟩ := topK_full g
  have hlt : k - 1 < (topK g n).length := by omega
  refine ⟨hlt, ?_⟩
  unfold selectedMask
  rw [if_pos ⟨hk1, hk⟩, sortAsc_eq]
  have hlen : ((topK g n).map g).length = n := by rw [List.length_map, h2]
  rw [List.getElem?_eq_getElem (by rw [List.length_reverse]; omega), List.getElem_reverse]
  simp only [List.getElem_map, Option.map_some]
  have : ((topK g n).map g).length - 1 - (n - k) = k - 1 := by omega
  simp only [this]

/-- C24 (mask form): with distinct perturbed scores the mask selects exactly the indices returned by
the index form, hence exactly `k` of them. -/
theorem selectedMask_spec {n : ℕ} {g : Fin n → ℝ} (hg : Function.Injective g) {k : ℕ} (hk1 : 1 ≤ k)
    (hk : k ≤ n) :
    ∃ m, selectedMask g k = some m ∧ (∀ i, m i ↔ i ∈ topK g k) ∧ {i | m i}.ncard = k := by
  obtain ⟨hlt, hm⟩ := selectedMask_eq g hk1 hk
  obtain ⟨h1, h2, h3, h4⟩ := topK_full g
  have hmem : ∀ i, g ((topK g n)[k - 1]) ≤ g i ↔ i ∈ topK g k := by
    intro i
    obtain ⟨a, ha, hai⟩ := List.mem_iff_getElem.1 (h4 i)
    rw [topK_eq_take g k, List.mem_take_iff_getElem]
    constructor
    · intro hle
      by_contra hno
      have hak : k ≤ a := by
        by_contra hlt'
        exact hno ⟨a, by omega, hai⟩
      have := List.pairwise_iff_getElem.1 h3 (k - 1) a hlt ha (by omega)
      rw [hai] at this
      have heq := hg (le_antisymm this hle)
      rw [← hai] at heq
      have := (h1.getElem_inj_iff).1 heq
      omega
    · rintro ⟨b, hb, hbi⟩
      rw [← hbi]
      rcases Nat.lt_or_ge b (k - 1) with h | h
      · exact List.pairwise_iff_getElem.1 h3 b (k - 1) (by omega) hlt h
      · have : b = k - 1 := by omega
        simp only [this]; exact le_rfl
  refine ⟨_, hm, hmem, ?_⟩
  have : {i | g ((topK g n)[k - 1]) ≤ g i} = ((topK g k).toFinset : Set (Fin n)) := by
    ext i; simp [hmem i]
  rw [this, Set.ncard_coe_finset, List.toFinset_card_of_nodup (topK_spec g hk).1, (topK_spec g hk).2.1]

/-- Instance for C24: distinct scores on four classes. -/
example : Function.Injective (![3, 1, 4, 2] : Fin 4 → ℝ) ∧ 1 ≤ 2 ∧ 2 ≤ 4 := by
  refine ⟨?_, by norm_num, by norm_num⟩
  intro a b h
  fin_cases a <;> fin_cases b <;> simp_all

end Discs
