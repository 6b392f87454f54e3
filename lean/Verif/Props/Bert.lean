import Mathlib.Analysis.SpecialFunctions.Log.Deriv
import Mathlib.Analysis.SpecialFunctions.ExpDeriv
import Mathlib.Analysis.Calculus.FDeriv.Pi
import Mathlib.Analysis.SpecialFunctions.Sqrt
import Mathlib.Algebra.Order.Chebyshev
import Verif.Lemmas.Jax
import Verif.Model.Bert
import Verif.Props.TextEnergy

/-!
# C100: the infilling network is BERT on the completed sentence
-/

namespace Discs

open Finset

namespace Spec

/-- The sentence with the tokens `t` at the positions `pos`. -/
noncomputable def completed {s : BertSizes} {L k : ℕ} (inp : BertInput s L) (pos : Fin k → Fin L) (t : Fin k → Fin s.vocab) :
    Fin L → Fin s.vocab :=
  fun l => if h : ∃ i, pos i = l then t h.choose else inp.ids l

/-- One-hot rows of tokens. -/
def rowsOf {V k : ℕ} (t : Fin k → Fin V) : Fin k → Fin V → ℝ := fun i v => if v = t i then 1 else 0

/-- The network without infilling, on a sentence of tokens. -/
noncomputable def bert {s : BertSizes} {L : ℕ} (eps : ℝ) (act : ℝ → ℝ) (tied : Bool) (p : BertParams s)
    (inp : BertInput s L) : Fin L → Fin s.vocab → ℝ :=
  bertLogits eps act tied p inp (k := 0) Fin.elim0 Fin.elim0

/-- A sentence with its positions listed in another order. -/
def reorder {s : BertSizes} {L : ℕ} (σ : Equiv.Perm (Fin L)) (inp : BertInput s L) : BertInput s L where
  ids := inp.ids ∘ σ
  types := inp.types ∘ σ
  positions := inp.positions ∘ σ
  mask := inp.mask ∘ σ

end Spec

variable {s : BertSizes} {L k : ℕ} {eps : ℝ} {act : ℝ → ℝ} {tied : Bool}

private theorem foldl_update {α β : Type*} [DecidableEq α] {ι : Type*} (pos : ι → α) (rows : ι → β) (l : List ι)
    (hl : l.Nodup) (hp : Function.Injective pos) (a : α → β) :
    (∀ i ∈ l, l.foldl (fun b i => Function.update b (pos i) (rows i)) a (pos i) = rows i) ∧
      ∀ x, (∀ i ∈ l, pos i ≠ x) → l.foldl (fun b i => Function.update b (pos i) (rows i)) a x = a x := by
  induction l generalizing a with
  | nil => simp
  | cons j l ih =>
    obtain ⟨hj, hl⟩ := List.nodup_cons.1 hl
    obtain ⟨h1, h2⟩ := ih hl (Function.update a (pos j) (rows j))
    refine ⟨fun i hi => ?_, fun x hx => ?_⟩
    · rcases List.mem_cons.1 hi with rfl | hi
      · rw [List.foldl_cons, h2 _ fun i' hi' h => hj (by rwa [← hp h]), Function.update_self]
      · rw [List.foldl_cons, h1 i hi]
    · rw [List.foldl_cons, h2 x fun i hi => hx i (List.mem_cons_of_mem _ hi),
        Function.update_of_ne (Ne.symm (hx j List.mem_cons_self))]

/-- Writing rows at distinct positions: each position shows its row, all others are unchanged. -/
theorem setRows_at {α : Type*} (a : Fin L → α) (pos : Fin k → Fin L) (hp : Function.Injective pos) (rows : Fin k → α) :
    (∀ i, setRows a pos rows (pos i) = rows i) ∧ ∀ l, (∀ i, pos i ≠ l) → setRows a pos rows l = a l :=
  ⟨fun i => (foldl_update pos rows _ (List.nodup_finRange k) hp a).1 i (List.mem_finRange i),
    fun l h => (foldl_update pos rows _ (List.nodup_finRange k) hp a).2 l fun i _ => h i⟩

/-- The embedding of a one-hot row is the row of the table. -/
theorem oneHotEmbed_rowsOf {V H : ℕ} (word : Fin V → Fin H → ℝ) (t : Fin k → Fin V) (i : Fin k) :
    oneHotEmbed word (Spec.rowsOf t) i = word (t i) := by
  funext h
  simp [oneHotEmbed, Spec.rowsOf, ite_mul]

theorem completed_pos (inp : BertInput s L) (pos : Fin k → Fin L) (hp : Function.Injective pos)
    (t : Fin k → Fin s.vocab) (i : Fin k) : Spec.completed inp pos t (pos i) = t i := by
  have h : ∃ j, pos j = pos i := ⟨i, rfl⟩
  rw [Spec.completed, dif_pos h, hp h.choose_spec]

theorem completed_off (inp : BertInput s L) (pos : Fin k → Fin L)
    (t : Fin k → Fin s.vocab) (l : Fin L) (h : ∀ i, pos i ≠ l) : Spec.completed inp pos t l = inp.ids l :=
  dif_neg fun ⟨i, hi⟩ => h i hi

/-- **C100.** Called with the one-hot rows of tokens at distinct infill positions, the network computes what BERT computes
on the sentence completed by these tokens. -/
theorem bertLogits_completed (p : BertParams s) (inp : BertInput s L) (pos : Fin k → Fin L)
    (hp : Function.Injective pos) (t : Fin k → Fin s.vocab) :
    bertLogits eps act tied p inp pos (Spec.rowsOf t)
      = Spec.bert eps act tied p { inp with ids := Spec.completed inp pos t } := by
  have h : bertEmbed eps p.embed inp pos (Spec.rowsOf t)
      = bertEmbed eps p.embed { inp with ids := Spec.completed inp pos t } (k := 0) Fin.elim0 Fin.elim0 := by
    have hw : setRows (fun l => p.embed.word (inp.ids l)) pos (oneHotEmbed p.embed.word (Spec.rowsOf t))
        = fun l => p.embed.word (Spec.completed inp pos t l) := by
      funext l
      obtain ⟨h1, h2⟩ := setRows_at (fun l => p.embed.word (inp.ids l)) pos hp (oneHotEmbed p.embed.word (Spec.rowsOf t))
      by_cases hl : ∃ i, pos i = l
      · obtain ⟨i, rfl⟩ := hl
        rw [h1, oneHotEmbed_rowsOf, completed_pos inp pos hp]
      · push Not at hl
        rw [h2 l hl, completed_off inp pos t l hl]
    unfold bertEmbed
    rw [hw]
    rfl
  unfold Spec.bert bertLogits
  rw [h]

/-- What the sentence shows at the infill positions, the mask tokens, plays no part. -/
theorem bertLogits_ids (p : BertParams s) (inp inp' : BertInput s L) (pos : Fin k → Fin L)
    (hp : Function.Injective pos) (x : Fin k → Fin s.vocab → ℝ) (ht : inp'.types = inp.types)
    (hpos : inp'.positions = inp.positions) (hm : inp'.mask = inp.mask)
    (hids : ∀ l, (∀ i, pos i ≠ l) → inp'.ids l = inp.ids l) :
    bertLogits eps act tied p inp' pos x = bertLogits eps act tied p inp pos x := by
  have hw : setRows (fun l => p.embed.word (inp'.ids l)) pos (oneHotEmbed p.embed.word x)
      = setRows (fun l => p.embed.word (inp.ids l)) pos (oneHotEmbed p.embed.word x) := by
    funext l
    by_cases hl : ∃ i, pos i = l
    · obtain ⟨i, rfl⟩ := hl
      rw [(setRows_at _ pos hp _).1, (setRows_at _ pos hp _).1]
    · push Not at hl
      rw [(setRows_at _ pos hp _).2 l hl, (setRows_at _ pos hp _).2 l hl, hids l hl]
  unfold bertLogits bertEmbed
  rw [hw, ht, hpos, hm]

/-! ### Order of the positions -/

private theorem softmax_perm {ι : Type*} [Fintype ι] (σ : Equiv.Perm ι) (f : ι → ℝ) (j : ι) :
    softmax (f ∘ σ) j = softmax f (σ j) := by
  unfold softmax
  rw [← Equiv.sum_comp σ fun j => Real.exp (f j)]
  rfl

private theorem selfAttention_perm (σ : Equiv.Perm (Fin L)) (p : LayerParams s) (mask : Fin L → ℤ)
    (x : Fin L → Fin s.hidden → ℝ) : selfAttention p (mask ∘ σ) (x ∘ σ) = selfAttention p mask x ∘ σ := by
  funext i h
  simp only [selfAttention, mergeHeads, Function.comp]
  rw [← Equiv.sum_comp σ fun j => attnWeights (fun l => splitHeads (dense p.query (x l)) (finProdFinEquiv.symm h).1)
    (fun l => splitHeads (dense p.key (x l)) (finProdFinEquiv.symm h).1) (attnBias mask) (σ i) j * _]
  refine Finset.sum_congr rfl fun j _ => ?_
  congr 1
  exact softmax_perm σ (fun j => ∑ e, splitHeads (dense p.query (x (σ i))) (finProdFinEquiv.symm h).1 e
    / Real.sqrt s.headDim * splitHeads (dense p.key (x j)) (finProdFinEquiv.symm h).1 e + attnBias mask j) j

private theorem bertLayer_perm (σ : Equiv.Perm (Fin L)) (p : LayerParams s) (mask : Fin L → ℤ)
    (x : Fin L → Fin s.hidden → ℝ) : bertLayer eps act (mask ∘ σ) p (x ∘ σ) = bertLayer eps act mask p x ∘ σ := by
  unfold bertLayer
  rw [selfAttention_perm]
  rfl

private theorem bertEncode_perm (σ : Equiv.Perm (Fin L)) (layers : List (LayerParams s)) (mask : Fin L → ℤ)
    (x : Fin L → Fin s.hidden → ℝ) :
    bertEncode eps act (mask ∘ σ) layers (x ∘ σ) = bertEncode eps act mask layers x ∘ σ := by
  unfold bertEncode
  induction layers generalizing x with
  | nil => rfl
  | cons p layers ih => rw [List.foldl_cons, bertLayer_perm, ih, List.foldl_cons]

/-- The network knows where a token stands from its position id alone: listing the tokens with their types, position
ids and mask entries in another order gives the same logits, in that order. -/
theorem bert_reorder (σ : Equiv.Perm (Fin L)) (p : BertParams s) (inp : BertInput s L) :
    Spec.bert eps act tied p (Spec.reorder σ inp) = Spec.bert eps act tied p inp ∘ σ := by
  have h : bertEmbed eps p.embed (Spec.reorder σ inp) (k := 0) Fin.elim0 Fin.elim0
      = bertEmbed eps p.embed inp (k := 0) Fin.elim0 Fin.elim0 ∘ σ := rfl
  unfold Spec.bert bertLogits
  rw [h]
  change (fun l => bertHead eps act tied p (bertEncode eps act (inp.mask ∘ σ) p.layers _ l)) = _
  rw [bertEncode_perm]
  rfl

/-! ### Attention mask -/

/-- The weights of a query are a probability distribution over the keys. -/
theorem attnWeights_isProb {d : ℕ} (q k : Fin L → Fin d → ℝ) (bias : Fin L → ℝ) (i : Fin L) :
    (∀ j, 0 < attnWeights q k bias i j) ∧ ∑ j, attnWeights q k bias i j = 1 := by
  have : Nonempty (Fin L) := ⟨i⟩
  exact ⟨fun j => softmax_pos _ j, (isProb_softmax _).2⟩

/-- A masked key gets a negligible weight as soon as some key is not masked: scores between `-B` and `B` leave it at most
`exp (2 B - 1e10)`. -/
theorem attnWeights_masked {d : ℕ} (q k : Fin L → Fin d → ℝ) (mask : Fin L → ℤ) (B : ℝ) (i j j₀ : Fin L)
    (hB : ∀ j, |∑ e, q i e / Real.sqrt d * k j e| ≤ B) (hj : mask j ≤ 0) (hj₀ : 0 < mask j₀) :
    attnWeights q k (attnBias mask) i j ≤ Real.exp (2 * B - 1e10) := by
  unfold attnWeights softmax
  have h0 := hB j₀
  have h1 := hB j
  rw [abs_le] at h0 h1
  have hpos : 0 < ∑ j, Real.exp (∑ e, q i e / Real.sqrt d * k j e + attnBias mask j) :=
    Finset.sum_pos (fun _ _ => Real.exp_pos _) ⟨j, Finset.mem_univ _⟩
  rw [div_le_iff₀ hpos]
  have hle : Real.exp (∑ e, q i e / Real.sqrt d * k j₀ e + attnBias mask j₀)
      ≤ ∑ j, Real.exp (∑ e, q i e / Real.sqrt d * k j e + attnBias mask j) :=
    Finset.single_le_sum (f := fun j => Real.exp (∑ e, q i e / Real.sqrt d * k j e + attnBias mask j))
      (fun _ _ => (Real.exp_pos _).le) (Finset.mem_univ j₀)
  refine le_trans ?_ (mul_le_mul_of_nonneg_left hle (Real.exp_pos _).le)
  rw [← Real.exp_add, Real.exp_le_exp]
  have e1 : attnBias mask j = -1e10 := if_neg (not_lt.2 hj)
  have e0 : attnBias mask j₀ = 0 := if_pos hj₀
  change ∑ e, q i e / Real.sqrt d * k j e + attnBias mask j ≤ _
  rw [e1, e0]
  linarith [h0.1, h1.2]

/-- A mask that hides every key hides none: the weights are those without a mask. -/
theorem attnWeights_all_masked {d : ℕ} (q k : Fin L → Fin d → ℝ) (mask : Fin L → ℤ) (i : Fin L)
    (h : ∀ j, mask j ≤ 0) : attnWeights q k (attnBias mask) i = attnWeights q k (attnBias fun _ => 1) i := by
  funext j
  unfold attnWeights softmax
  have e : ∀ j, attnBias mask j = -1e10 := fun j => if_neg (not_lt.2 (h j))
  have e1 : ∀ j : Fin L, attnBias (fun _ => 1) j = 0 := fun j => if_pos (by norm_num)
  simp only [e, e1, Real.exp_add, Real.exp_zero, mul_one]
  rw [← Finset.sum_mul, mul_div_mul_right _ _ (Real.exp_pos _).ne']

/-! ### Layer normalisation -/

/-- The clipped variance is the mean squared deviation. -/
theorem vecVar_eq {n : ℕ} (hn : 0 < n) (x : Fin n → ℝ) : vecVar x = vecMean fun i => (x i - vecMean x) ^ 2 := by
  have hn' : (n : ℝ) ≠ 0 := by exact_mod_cast hn.ne'
  have key : vecMean (fun i => (x i - vecMean x) ^ 2) = vecMean (fun i => x i ^ 2) - vecMean x ^ 2 := by
    have : ∑ i, (x i - vecMean x) ^ 2 = ∑ i, x i ^ 2 - 2 * vecMean x * ∑ i, x i + n * vecMean x ^ 2 := by
      simp only [sub_sq]
      rw [Finset.sum_add_distrib, Finset.sum_sub_distrib, Finset.sum_const, Finset.card_univ, Fintype.card_fin,
        nsmul_eq_mul, Finset.mul_sum]
      congr 2
      exact Finset.sum_congr rfl fun i _ => by ring
    have hs : ∑ i, x i = n * vecMean x := by unfold vecMean; field_simp
    unfold vecMean at this hs ⊢
    rw [this, hs]
    field_simp
    ring
  unfold vecVar
  rw [key, max_eq_right]
  rw [← key]
  exact div_nonneg (Finset.sum_nonneg fun i _ => sq_nonneg _) (Nat.cast_nonneg _)

/-- Before scale and offset a normalised vector has mean zero and mean square below one. -/
theorem layerNorm_moments {n : ℕ} (hn : 0 < n) (he : 0 < eps) (x : Fin n → ℝ) :
    vecMean (layerNorm eps ⟨fun _ => 1, fun _ => 0⟩ x) = 0 ∧
      vecMean (fun i => layerNorm eps ⟨fun _ => 1, fun _ => 0⟩ x i ^ 2) = vecVar x / (vecVar x + eps) := by
  have hn' : (n : ℝ) ≠ 0 := by exact_mod_cast hn.ne'
  have hv : 0 ≤ vecVar x := le_max_left _ _
  constructor
  · have h : layerNorm eps ⟨fun _ => 1, fun _ => 0⟩ x = fun i => (x i - vecMean x) * (Real.sqrt (vecVar x + eps))⁻¹ := by
      funext i; simp [layerNorm]
    rw [h]
    unfold vecMean
    rw [← Finset.sum_mul, Finset.sum_sub_distrib, Finset.sum_const, Finset.card_univ, Fintype.card_fin, nsmul_eq_mul,
      mul_div_cancel₀ _ hn', sub_self, zero_mul, zero_div]
  · simp only [layerNorm, mul_one, add_zero, mul_pow]
    have hs : (Real.sqrt (vecVar x + eps))⁻¹ ^ 2 = (vecVar x + eps)⁻¹ := by
      rw [inv_pow, Real.sq_sqrt (by linarith)]
    rw [hs]
    have : vecMean (fun i => (x i - vecMean x) ^ 2 * (vecVar x + eps)⁻¹)
        = vecMean (fun i => (x i - vecMean x) ^ 2) * (vecVar x + eps)⁻¹ := by
      unfold vecMean; rw [← Finset.sum_mul]; ring
    rw [this, ← vecVar_eq hn, div_eq_mul_inv]

/-! ### Smoothness -/

private theorem differentiable_layerNorm {n : ℕ} (hn : 0 < n) (he : 0 < eps) (p : NormParams n) :
    Differentiable ℝ (layerNorm eps p) := by
  have hmean : Differentiable ℝ (vecMean (n := n)) := by unfold vecMean; fun_prop
  have hvar : Differentiable ℝ (vecVar (n := n)) := by
    have : (vecVar (n := n)) = fun x => vecMean fun i => (x i - vecMean x) ^ 2 := funext fun x => vecVar_eq hn x
    rw [this]
    exact hmean.comp (by fun_prop)
  have hpos : ∀ x : Fin n → ℝ, vecVar x + eps ≠ 0 := fun x => by
    have : 0 ≤ vecVar x := le_max_left _ _
    linarith
  have hs : ∀ x : Fin n → ℝ, Real.sqrt (vecVar x + eps) ≠ 0 := fun x => by
    have : 0 ≤ vecVar x := le_max_left _ _
    exact (Real.sqrt_pos.2 (by linarith)).ne'
  unfold layerNorm
  refine differentiable_pi.2 fun i => ?_
  have h1 : Differentiable ℝ fun x : Fin n → ℝ => Real.sqrt (vecVar x + eps) :=
    (hvar.add_const eps).sqrt hpos
  have h2 := h1.inv hs
  fun_prop

private theorem differentiable_dense {m n : ℕ} (p : DenseParams m n) : Differentiable ℝ (dense p) := by
  unfold dense; fun_prop

private theorem differentiable_softmax {ι : Type*} [Fintype ι] (j : ι) :
    Differentiable ℝ fun l : ι → ℝ => softmax l j := by
  have hne : ∀ l : ι → ℝ, ∑ j, Real.exp (l j) ≠ 0 := fun l =>
    (Finset.sum_pos (fun _ _ => Real.exp_pos _) ⟨j, Finset.mem_univ _⟩).ne'
  unfold softmax
  simp only [div_eq_mul_inv]
  have h1 : Differentiable ℝ fun l : ι → ℝ => ∑ j, Real.exp (l j) := by fun_prop
  have h2 := h1.inv hne
  fun_prop

private theorem differentiable_selfAttention (p : LayerParams s) (mask : Fin L → ℤ) :
    Differentiable ℝ (selfAttention p mask) := by
  have hq := differentiable_dense p.query
  have hk := differentiable_dense p.key
  have hv := differentiable_dense p.value
  refine differentiable_pi.2 fun i => differentiable_pi.2 fun h => ?_
  simp only [selfAttention, mergeHeads, splitHeads, attnWeights]
  refine Differentiable.fun_sum fun j _ => ?_
  have hs : Differentiable ℝ fun (x : Fin L → Fin s.hidden → ℝ) (j' : Fin L) =>
      ∑ e, dense p.query (x i) (finProdFinEquiv ((finProdFinEquiv.symm h).1, e)) / Real.sqrt s.headDim
        * dense p.key (x j') (finProdFinEquiv ((finProdFinEquiv.symm h).1, e)) + attnBias mask j' := by
    fun_prop
  have h2 : Differentiable ℝ fun x : Fin L → Fin s.hidden → ℝ =>
      dense p.value (x j) (finProdFinEquiv ((finProdFinEquiv.symm h).1, (finProdFinEquiv.symm h).2)) := by
    fun_prop
  exact ((differentiable_softmax j).comp hs).mul h2

private theorem differentiable_bertLayer (hn : 0 < s.hidden) (he : 0 < eps) (ha : Differentiable ℝ act)
    (mask : Fin L → ℤ) (p : LayerParams s) : Differentiable ℝ (bertLayer eps act mask p) := by
  have h1 := differentiable_layerNorm hn he p.attnNorm
  have h2 := differentiable_layerNorm hn he p.outNorm
  have h3 := differentiable_dense p.attnOut
  have h4 := differentiable_dense p.inter
  have h5 := differentiable_dense p.out
  have h6 := differentiable_selfAttention p mask
  unfold bertLayer
  fun_prop

private theorem differentiable_bertEncode (hn : 0 < s.hidden) (he : 0 < eps) (ha : Differentiable ℝ act)
    (mask : Fin L → ℤ) (layers : List (LayerParams s)) : Differentiable ℝ (bertEncode eps act mask layers) := by
  unfold bertEncode
  induction layers with
  | nil => exact differentiable_id
  | cons p layers ih => exact ih.comp (differentiable_bertLayer hn he ha mask p)

private theorem differentiable_bertHead (hn : 0 < s.hidden) (he : 0 < eps) (ha : Differentiable ℝ act)
    (p : BertParams s) : Differentiable ℝ (bertHead eps act tied p) := by
  have h1 := differentiable_layerNorm hn he p.transformNorm
  have h2 := differentiable_dense p.transform
  unfold bertHead
  fun_prop

private theorem differentiable_setRows {E : Type*} [NormedAddCommGroup E] [NormedSpace ℝ E]
    (pos : Fin k → Fin L) (l : List (Fin k)) (b : (Fin k → E) → Fin L → E) (hb : Differentiable ℝ b) :
    Differentiable ℝ fun rows => l.foldl (fun b i => Function.update b (pos i) (rows i)) (b rows) := by
  induction l generalizing b with
  | nil => exact hb
  | cons i l ih =>
    refine ih (fun rows => Function.update (b rows) (pos i) (rows i)) (differentiable_pi.2 fun j => ?_)
    by_cases h : j = pos i
    · subst h
      simp only [Function.update_self]
      fun_prop
    · simp only [Function.update_of_ne h]
      fun_prop

private theorem differentiable_bertEmbed (hn : 0 < s.hidden) (he : 0 < eps) (p : EmbedParams s) (inp : BertInput s L)
    (pos : Fin k → Fin L) : Differentiable ℝ (bertEmbed eps p inp pos) := by
  have h1 := differentiable_layerNorm hn he p.norm
  have h2 : Differentiable ℝ (oneHotEmbed (k := k) p.word) := by unfold oneHotEmbed; fun_prop
  have h3 : Differentiable ℝ fun x => setRows (fun l => p.word (inp.ids l)) pos (oneHotEmbed p.word x) :=
    (differentiable_setRows pos (List.finRange k) (fun _ l => p.word (inp.ids l))
      (differentiable_const _)).comp h2
  unfold bertEmbed
  fun_prop

/-- The logits are differentiable in the rows given at the infill positions, at every point, so the gradients the
samplers ask for exist. -/
theorem differentiable_bertLogits (hn : 0 < s.hidden) (he : 0 < eps) (ha : Differentiable ℝ act)
    (p : BertParams s) (inp : BertInput s L) (pos : Fin k → Fin L) :
    Differentiable ℝ (bertLogits eps act tied p inp pos) := by
  have h1 := differentiable_bertEmbed (k := k) hn he p.embed inp pos
  have h2 := differentiable_bertEncode hn he ha inp.mask p.layers
  have h3 := differentiable_bertHead (tied := tied) hn he ha p
  unfold bertLogits
  fun_prop

/-- So is the energy. -/
theorem differentiable_tiForward (hn : 0 < s.hidden) (he : 0 < eps) (ha : Differentiable ℝ act) (m : ℕ)
    (p : BertParams s) (inp : BertInput s L) (pos : Fin k → Fin L) :
    Differentiable ℝ (tiForward m (bertNet eps act tied p inp pos)) := by
  have h1 := differentiable_bertLogits (k := k) (tied := tied) hn he ha p inp pos
  unfold tiForward logSoftmax logsumexp bertNet
  refine Differentiable.fun_sum fun i _ => Differentiable.fun_sum fun v _ => ?_
  have h0 : Differentiable ℝ fun x : Fin k → Fin s.vocab → ℝ => Function.update x i (tiMaskRow s.vocab m) := by
    refine differentiable_pi.2 fun j => ?_
    by_cases h : j = i
    · subst h
      simp only [Function.update_self]
      fun_prop
    · simp only [Function.update_of_ne h]
      fun_prop
  have h2 : Differentiable ℝ fun x : Fin k → Fin s.vocab → ℝ =>
      ∑ w, Real.exp (bertLogits eps act tied p inp pos (Function.update x i (tiMaskRow s.vocab m)) (pos i) w) := by
    fun_prop
  have h3 := h2.log fun x => (Finset.sum_pos (fun w _ => Real.exp_pos _) ⟨v, Finset.mem_univ _⟩).ne'
  fun_prop

/-! ### The energy -/

namespace Spec

/-- The law BERT gives to the token at position `l` of a sentence. -/
noncomputable def bertLaw {s : BertSizes} {L : ℕ} (eps : ℝ) (act : ℝ → ℝ) (tied : Bool) (p : BertParams s)
    (inp : BertInput s L) (l : Fin L) (v : Fin s.vocab) : ℝ :=
  Real.exp (bert eps act tied p inp l v) / ∑ w, Real.exp (bert eps act tied p inp l w)

/-- A sentence with the token `m` at position `l`. -/
def withToken {s : BertSizes} {L : ℕ} (inp : BertInput s L) (l : Fin L) (m : Fin s.vocab) : BertInput s L :=
  { inp with ids := Function.update inp.ids l m }

/-- BERT with another word embedding of the token `m` on the input side. -/
def withWord {s : BertSizes} (p : BertParams s) (m : Fin s.vocab) (e : Fin s.hidden → ℝ) : BertParams s :=
  { p with embed := { p.embed with word := Function.update p.embed.word m e } }

end Spec

/-- The conditional of C81 for this network, with the row of a token `m` at the position that is predicted, is BERT's law
there for the completed sentence with `m` at that position. -/
theorem maskedCond_bert (p : BertParams s) (inp : BertInput s L) (pos : Fin k → Fin L)
    (hp : Function.Injective pos) (m : Fin s.vocab) (x : Fin k → Fin s.vocab) (i : Fin k) (v : Fin s.vocab) :
    Spec.maskedCond (Spec.tokenRow m) (bertNet eps act tied p inp pos) x i v
      = Spec.bertLaw eps act tied p
          (Spec.withToken { inp with ids := Spec.completed inp pos x } (pos i) m) (pos i) v := by
  have hrow : (fun j => if j = i then Spec.tokenRow m else fun c => if c = x j then (1 : ℝ) else 0)
      = Spec.rowsOf (Function.update x i m) := by
    funext j c
    by_cases h : j = i
    · subst h; simp [Spec.rowsOf, Spec.tokenRow]
    · simp [Spec.rowsOf, h]
  have hids : Spec.completed inp pos (Function.update x i m)
      = Function.update (Spec.completed inp pos x) (pos i) m := by
    funext l
    by_cases hl : ∃ j, pos j = l
    · obtain ⟨j, rfl⟩ := hl
      rw [completed_pos inp pos hp]
      by_cases h : j = i
      · subst h; simp
      · rw [Function.update_of_ne h, Function.update_of_ne (fun e => h (hp e)), completed_pos inp pos hp]
    · push Not at hl
      rw [completed_off inp pos _ l hl, Function.update_of_ne (Ne.symm (hl i)), completed_off inp pos _ l hl]
  unfold Spec.maskedCond
  rw [hrow]
  unfold bertNet
  rw [bertLogits_completed p inp pos hp, hids]
  rfl

namespace Spec

/-- The same network with its own decoder kernel. -/
def untie {s : BertSizes} (p : BertParams s) : BertParams s := { p with decoder := fun h v => p.embed.word v h }

end Spec

theorem bertHead_untie (p : BertParams s) : bertHead eps act true p = bertHead eps act false (Spec.untie p) := rfl

/-- **C100/C81.** The energy of the code is the pseudo-log-likelihood of the completed sentence under a network that differs
from BERT in one point: on the input side the embedding of `[MASK]` is zero.  (The tokens of the sentence are other
than `[MASK]`.) -/
theorem tiEnergy_bert (p : BertParams s) (inp : BertInput s L) (pos : Fin k → Fin L) (hp : Function.Injective pos)
    (m : Fin s.vocab) (x : Fin k → Fin s.vocab) (hm : ∀ l, Spec.completed inp pos x l ≠ m) :
    tiEnergy m.val (bertNet eps act true p inp pos) (fun i => ((x i).val : ℤ))
      = ∑ i, Real.log (Spec.bertLaw eps act false (Spec.withWord (Spec.untie p) m fun _ => 0)
          (Spec.withToken { inp with ids := Spec.completed inp pos x } (pos i) m) (pos i) (x i)) := by
  rw [tiEnergy_eq]
  refine Finset.sum_congr rfl fun i _ => ?_
  congr 1
  have hE : bertEmbed eps p.embed inp pos (fun j => if j = i then (fun _ => 0) else fun c => if c = x j then (1 : ℝ) else 0)
      = bertEmbed eps (Spec.withWord (Spec.untie p) m fun _ => 0).embed
        (Spec.withToken { inp with ids := Spec.completed inp pos x } (pos i) m) (k := 0) Fin.elim0 Fin.elim0 := by
    have hw : setRows (fun l => p.embed.word (inp.ids l)) pos (oneHotEmbed p.embed.word
          (fun j => if j = i then (fun _ => 0) else fun c => if c = x j then (1 : ℝ) else 0))
        = fun l => (Spec.withWord (Spec.untie p) m fun _ => 0).embed.word
            (Function.update (Spec.completed inp pos x) (pos i) m l) := by
      funext l
      by_cases hl : ∃ j, pos j = l
      · obtain ⟨j, rfl⟩ := hl
        rw [(setRows_at _ pos hp _).1]
        by_cases h : j = i
        · subst h
          funext e
          simp [oneHotEmbed, Spec.withWord]
        · rw [Function.update_of_ne (fun e => h (hp e))]
          have hx := hm (pos j)
          rw [completed_pos inp pos hp] at hx ⊢
          funext e
          simp [oneHotEmbed, h, Spec.withWord, Spec.untie, Function.update_of_ne hx]
      · push Not at hl
        have hx := hm l
        rw [(setRows_at _ pos hp _).2 l hl, Function.update_of_ne (Ne.symm (hl i))]
        rw [completed_off inp pos _ l hl] at hx ⊢
        simp [Spec.withWord, Spec.untie, Function.update_of_ne hx]
    unfold bertEmbed
    rw [hw]
    rfl
  unfold Spec.maskedCond Spec.bertLaw Spec.bert bertNet bertLogits
  rw [hE]
  rfl

/-- If the embedding of `[MASK]` is zero, this is the pseudo-log-likelihood of BERT itself. -/
theorem tiEnergy_bert_partial (p : BertParams s) (inp : BertInput s L) (pos : Fin k → Fin L)
    (hp : Function.Injective pos) (m : Fin s.vocab) (x : Fin k → Fin s.vocab) (h0 : p.embed.word m = fun _ => 0) :
    tiEnergy m.val (bertNet eps act tied p inp pos) (fun i => ((x i).val : ℤ))
      = ∑ i, Real.log (Spec.bertLaw eps act tied p
          (Spec.withToken { inp with ids := Spec.completed inp pos x } (pos i) m) (pos i) (x i)) := by
  rw [tiEnergy_eq]
  refine Finset.sum_congr rfl fun i _ => ?_
  rw [← maskedCond_bert p inp pos hp]
  have hE : oneHotEmbed p.embed.word
        (fun j => if j = i then (fun _ => 0) else fun c => if c = x j then (1 : ℝ) else 0)
      = oneHotEmbed p.embed.word
        (fun j => if j = i then Spec.tokenRow m else fun c => if c = x j then (1 : ℝ) else 0) := by
    funext j e
    by_cases h : j = i
    · subst h; simp [oneHotEmbed, Spec.tokenRow, h0]
    · simp [oneHotEmbed, h]
  unfold Spec.maskedCond bertNet bertLogits bertEmbed
  rw [hE]

/-! ### Positions and categories -/

/-- The network has fewer positions than it has words, so the energy of token ids is computed. -/
theorem tiSingleForward_some (m : ℕ) (p : BertParams s) (inp : BertInput s L) (pos : Fin k → Fin L)
    (hp : Function.Injective pos) (hpos : Function.Injective inp.positions) (hV : s.maxPos < s.vocab) (x : Fin k → ℤ) :
    tiSingleForward m (bertNet eps act tied p inp pos) x = some (tiEnergy m (bertNet eps act tied p inp pos) x) := by
  have h1 := Fintype.card_le_of_injective _ (hpos.comp hp)
  rw [Fintype.card_fin, Fintype.card_fin] at h1
  exact if_neg (by omega)

/-- For other networks with as many positions as categories there is no energy. -/
theorem tiSingleForward_none {V : ℕ} (m : ℕ) (net : (Fin V → Fin V → ℝ) → Fin V → Fin V → ℝ) (x : Fin V → ℤ) :
    tiSingleForward m net x = none := if_pos rfl

/-! ### A small network -/

namespace Spec

/-- Two words, one head with two dimensions. -/
def tinySizes : BertSizes := ⟨2, 1, 2, 1, 1, 1⟩

/-- No hidden layers, the identity as transformation, words `(0, 0)` and `(1, -1)`. -/
def tinyBert : BertParams tinySizes where
  embed := ⟨fun v h => if v.val = 1 then (if h.val = 0 then 1 else -1) else 0, fun _ _ => 0, fun _ _ => 0,
    ⟨fun _ => 1, fun _ => 0⟩⟩
  layers := []
  transform := ⟨fun i j => if i = j then 1 else 0, fun _ => 0⟩
  transformNorm := ⟨fun _ => 1, fun _ => 0⟩
  decoder := fun _ _ => 0
  bias := fun _ => 0

/-- The words of the small network. -/
def tinyWord : Fin tinySizes.vocab := ⟨0, by decide⟩

/-- Its mask token. -/
def tinyMask : Fin tinySizes.vocab := ⟨1, by decide⟩

/-- A sentence of one word, masked. -/
def tinyInput : BertInput tinySizes 1 := ⟨fun _ => tinyMask, fun _ => ⟨0, by decide⟩, fun _ => ⟨0, by decide⟩, fun _ => 1⟩

end Spec

private theorem sum_two {n : ℕ} (hn : n = 2) (f : Fin n → ℝ) : ∑ i, f i = f ⟨0, by omega⟩ + f ⟨1, by omega⟩ := by
  subst hn; exact Fin.sum_univ_two f

private theorem norm_pm {n : ℕ} (hn : n = 2) (a : ℝ) :
    layerNorm eps (n := n) ⟨fun _ => 1, fun _ => 0⟩ (fun i => if i.val = 0 then a else -a)
      = fun i => if i.val = 0 then a * (Real.sqrt (a ^ 2 + eps))⁻¹ else -(a * (Real.sqrt (a ^ 2 + eps))⁻¹) := by
  have hm : vecMean (n := n) (fun i => if i.val = 0 then a else -a) = 0 := by
    unfold vecMean; rw [sum_two hn]; simp
  have hv : vecVar (n := n) (fun i => if i.val = 0 then a else -a) = a ^ 2 := by
    rw [vecVar_eq (by omega), hm]
    unfold vecMean
    rw [sum_two hn]
    simp [hn]
  funext i
  unfold layerNorm
  rw [hm, hv]
  by_cases h : i.val = 0 <;> simp [h]

private theorem tiny_hidden : Spec.tinySizes.hidden = 2 := rfl

private theorem tiny_head (he : 0 < eps) (a : ℝ) :
    ∃ d : ℝ, (a = 0 → d = 0) ∧ (0 < a → 0 < d) ∧
      bertHead eps id true Spec.tinyBert
          (layerNorm eps ⟨fun _ => 1, fun _ => 0⟩ fun i => if i.val = 0 then a else -a)
        = fun v => if v.val = 1 then 2 * d else 0 := by
  rw [norm_pm tiny_hidden]
  set c := a * (Real.sqrt (a ^ 2 + eps))⁻¹ with hc
  have hcpos : 0 < a → 0 < c := fun ha => mul_pos ha (inv_pos.2 (Real.sqrt_pos.2 (by positivity)))
  refine ⟨c * (Real.sqrt (c ^ 2 + eps))⁻¹, fun h0 => by rw [hc, h0]; simp, fun ha =>
    mul_pos (hcpos ha) (inv_pos.2 (Real.sqrt_pos.2 (by positivity))), ?_⟩
  have ht : (fun h => id (dense Spec.tinyBert.transform (fun i => if i.val = 0 then c else -c) h))
      = fun i : Fin Spec.tinySizes.hidden => if i.val = 0 then c else -c := by
    funext i
    simp [dense, Spec.tinyBert]
  unfold bertHead
  simp only []
  rw [ht]
  have hn : Spec.tinyBert.transformNorm = ⟨fun _ => 1, fun _ => 0⟩ := rfl
  rw [hn, norm_pm tiny_hidden]
  funext v
  rw [sum_two tiny_hidden]
  by_cases hv : v.val = 1
  · simp [hv, Spec.tinyBert]; ring
  · simp [hv, Spec.tinyBert]

private theorem tiny_law (d : ℝ) :
    Real.exp (if Spec.tinyWord.val = 1 then 2 * d else 0) / ∑ w : Fin Spec.tinySizes.vocab,
      Real.exp (if w.val = 1 then 2 * d else 0) = 1 / (1 + Real.exp (2 * d)) := by
  rw [sum_two (show Spec.tinySizes.vocab = 2 from rfl)]
  simp [Spec.tinyWord]

/-- **C81 is false for BERT itself**: in the small network the energy of a word is not BERT's log probability of the word
given `[MASK]`, whatever `layer_norm_eps`. -/
theorem tiEnergy_bert_not_masked (he : 0 < eps) :
    tiEnergy Spec.tinyMask.val (bertNet eps id true Spec.tinyBert Spec.tinyInput (k := 1) fun _ => 0)
        (fun _ => (Spec.tinyWord.val : ℤ))
      ≠ Real.log (Spec.bertLaw eps id true Spec.tinyBert
          (Spec.withToken Spec.tinyInput 0 Spec.tinyMask) 0 Spec.tinyWord) := by
  obtain ⟨d₀, hd₀, -, e₀⟩ := tiny_head (eps := eps) he 0
  obtain ⟨d₁, -, hd₁, e₁⟩ := tiny_head (eps := eps) he 1
  rw [tiEnergy_eq _ _ fun _ => Spec.tinyWord, Fin.sum_univ_one]
  have l0 : Spec.maskedCond (fun _ => 0) (bertNet eps id true Spec.tinyBert Spec.tinyInput (k := 1) fun _ => 0)
      (fun _ => Spec.tinyWord) 0 Spec.tinyWord = 1 / 2 := by
    have : bertNet eps id true Spec.tinyBert Spec.tinyInput (k := 1) (fun _ => 0)
        (fun j => if j = 0 then (fun _ => 0) else fun c => if c = Spec.tinyWord then 1 else 0) 0
        = fun v => if v.val = 1 then 2 * d₀ else 0 := by
      rw [← e₀]
      change bertHead eps id true Spec.tinyBert (layerNorm eps _ _) = _
      congr 2
      funext h
      simp [setRows, oneHotEmbed, Spec.tinyBert, List.finRange_succ]
    have h := tiny_law d₀
    unfold Spec.maskedCond
    simp only []
    rw [this, h, hd₀ rfl]
    norm_num
  have l1 : Spec.bertLaw eps id true Spec.tinyBert (Spec.withToken Spec.tinyInput 0 Spec.tinyMask) 0 Spec.tinyWord
      = 1 / (1 + Real.exp (2 * d₁)) := by
    have : Spec.bert eps id true Spec.tinyBert (Spec.withToken Spec.tinyInput 0 Spec.tinyMask) 0
        = fun v => if v.val = 1 then 2 * d₁ else 0 := by
      rw [← e₁]
      change bertHead eps id true Spec.tinyBert (layerNorm eps _ _) = _
      congr 2
      funext h
      simp [setRows, Spec.tinyBert, Spec.withToken, Spec.tinyMask]
    unfold Spec.bertLaw
    rw [this, tiny_law d₁]
  rw [l0, l1]
  have hexp : 1 < Real.exp (2 * d₁) := by
    rw [← Real.exp_zero]
    exact Real.exp_lt_exp.2 (by have := hd₁ one_pos; linarith)
  refine ne_of_gt (Real.log_lt_log (by positivity) ?_)
  exact one_div_lt_one_div_of_lt two_pos (by linarith)

/-- The hypotheses of `bertLogits_completed` and `tiEnergy_bert` are met: one position, another word than `[MASK]`. -/
example : Function.Injective (fun _ : Fin 1 => (0 : Fin 1)) ∧
    ∀ l, Spec.completed Spec.tinyInput (fun _ : Fin 1 => (0 : Fin 1)) (fun _ => Spec.tinyWord) l ≠ Spec.tinyMask := by
  have hp : Function.Injective (fun _ : Fin 1 => (0 : Fin 1)) := fun a b _ => Subsingleton.elim a b
  refine ⟨hp, fun l => ?_⟩
  have h := completed_pos Spec.tinyInput (fun _ : Fin 1 => (0 : Fin 1)) hp (fun _ => Spec.tinyWord) 0
  rw [Subsingleton.elim l 0, h]
  decide

/-- Two keys, the second one masked: its weight is at most `exp (2 - 1e10)` for scores in `[-1, 1]`. -/
example : attnWeights (fun _ (_ : Fin 1) => (1 : ℝ)) (fun _ _ => 1) (attnBias ![1, 0]) (0 : Fin 2) 1
    ≤ Real.exp (2 * 1 - 1e10) :=
  attnWeights_masked _ _ ![1, 0] 1 0 1 0 (fun j => by simp) (by simp) (by simp)

end Discs
