import Mathlib.Data.Matrix.Mul
import Verif.Props.Bert

/-!
# C100: the network is the transformer of the literature

`Spec.Transformer` is written with matrices, sentence positions as rows, without the helpers of the model.
-/

namespace Discs

open Finset Matrix

namespace Spec.Transformer

/-- A matrix of word vectors, one row per position. -/
abbrev Seq (L H : ℕ) := Matrix (Fin L) (Fin H) ℝ

/-- `X W + 1 bᵀ`. -/
def affine {L m n : ℕ} (p : DenseParams m n) (X : Seq L m) : Seq L n :=
  X * Matrix.of p.kernel + Matrix.of fun _ j => p.bias j

/-- Each row is shifted to mean zero, divided by the root of its variance plus `eps`, scaled and shifted. -/
noncomputable def norm {L n : ℕ} (eps : ℝ) (p : NormParams n) (X : Seq L n) : Seq L n :=
  Matrix.of fun l i =>
    let mean := (∑ j, X l j) / n
    let var := (∑ j, (X l j - mean) ^ 2) / n
    p.scale i * ((X l i - mean) / Real.sqrt (var + eps)) + p.bias i

/-- Columns `h d, …, h d + d - 1`. -/
def headCols {L a d : ℕ} (X : Seq L (a * d)) (h : Fin a) : Seq L d :=
  X.submatrix id fun e => ⟨h * d + e, by
    have h1 : h.val + 1 ≤ a := h.isLt
    have h2 := e.isLt
    calc h.val * d + e.val < h.val * d + d := by omega
      _ = (h.val + 1) * d := by ring
      _ ≤ a * d := Nat.mul_le_mul_right d h1⟩

/-- Softmax of each row. -/
noncomputable def softmaxRows {L : ℕ} (S : Matrix (Fin L) (Fin L) ℝ) : Matrix (Fin L) (Fin L) ℝ :=
  Matrix.of fun i j => Real.exp (S i j) / ∑ j', Real.exp (S i j')

/-- `softmax(Q Kᵀ / √d + M) V` where the columns of masked positions of `M` are `-10¹⁰`. -/
noncomputable def attention {L d : ℕ} (mask : Fin L → ℤ) (Q K V : Seq L d) : Seq L d :=
  softmaxRows ((Real.sqrt d)⁻¹ • (Q * Kᵀ) + Matrix.of fun _ j => if mask j ≤ 0 then -(10 : ℝ) ^ 10 else 0) * V

/-- The heads side by side. -/
noncomputable def multiHead {s : BertSizes} {L : ℕ} (p : LayerParams s) (mask : Fin L → ℤ) (X : Seq L s.hidden) :
    Seq L s.hidden :=
  Matrix.of fun i c =>
    have hd : 0 < s.headDim := Nat.pos_of_ne_zero fun h => absurd c.isLt (by
      change ¬ c.val < s.heads * s.headDim
      rw [h, Nat.mul_zero]
      exact Nat.not_lt_zero _)
    let h : Fin s.heads := ⟨c / s.headDim, Nat.div_lt_of_lt_mul (by rw [Nat.mul_comm]; exact c.isLt)⟩
    attention mask (headCols (affine p.query X) h) (headCols (affine p.key X) h) (headCols (affine p.value X) h) i
      ⟨c % s.headDim, Nat.mod_lt _ hd⟩

/-- Attention and feed-forward network, each with residual connection and normalisation. -/
noncomputable def layer {s : BertSizes} {L : ℕ} (eps : ℝ) (act : ℝ → ℝ) (mask : Fin L → ℤ) (p : LayerParams s)
    (X : Seq L s.hidden) : Seq L s.hidden :=
  let Z := norm eps p.attnNorm (X + affine p.attnOut (multiHead p mask X))
  norm eps p.outNorm (Z + affine p.out ((affine p.inter Z).map act))

/-- Layers from the first to the last. -/
noncomputable def encoder {s : BertSizes} {L : ℕ} (eps : ℝ) (act : ℝ → ℝ) (mask : Fin L → ℤ) :
    List (LayerParams s) → Seq L s.hidden → Seq L s.hidden
  | [], X => X
  | p :: ps, X => encoder eps act mask ps (layer eps act mask p X)

/-- Masked language model: embeddings of words, positions and types, encoder, transformation, decoder. -/
noncomputable def logits {s : BertSizes} {L : ℕ} (eps : ℝ) (act : ℝ → ℝ) (tied : Bool) (p : BertParams s)
    (inp : BertInput s L) : Matrix (Fin L) (Fin s.vocab) ℝ :=
  let X := norm eps p.embed.norm (Matrix.of fun l h =>
    p.embed.word (inp.ids l) h + p.embed.position (inp.positions l) h + p.embed.type (inp.types l) h)
  let T := norm eps p.transformNorm ((affine p.transform (encoder eps act inp.mask p.layers X)).map act)
  T * (if tied then (Matrix.of p.embed.word)ᵀ else Matrix.of p.decoder) + Matrix.of fun _ v => p.bias v

end Spec.Transformer

open Spec.Transformer

variable {s : BertSizes} {L k : ℕ} {eps : ℝ} {act : ℝ → ℝ} {tied : Bool}

private theorem affine_eq {m n : ℕ} (p : DenseParams m n) (X : Seq L m) (l : Fin L) : affine p X l = dense p (X l) := by
  funext j
  simp [affine, dense, Matrix.mul_apply]

private theorem norm_eq {n : ℕ} (hn : 0 < n) (p : NormParams n) (X : Seq L n) (l : Fin L) :
    Spec.Transformer.norm eps p X l = layerNorm eps p (X l) := by
  funext i
  unfold layerNorm
  rw [vecVar_eq hn]
  simp only [Spec.Transformer.norm, Matrix.of_apply, vecMean]
  ring

private theorem headCols_eq {a d : ℕ} (X : Seq L (a * d)) (h : Fin a) (l : Fin L) (e : Fin d) :
    headCols X h l e = splitHeads (X l) h e := by
  unfold headCols splitHeads
  rw [Matrix.submatrix_apply]
  congr 1
  apply Fin.ext
  simp [finProdFinEquiv, Nat.mul_comm, Nat.add_comm]

private theorem attention_eq {d : ℕ} (mask : Fin L → ℤ) (Q K V : Seq L d) (i : Fin L) (e : Fin d) :
    attention mask Q K V i e = ∑ j, attnWeights Q K (attnBias mask) i j * V j e := by
  unfold attention
  rw [Matrix.mul_apply]
  refine Finset.sum_congr rfl fun j _ => ?_
  congr 1
  have hs : ∀ j, ((Real.sqrt d)⁻¹ • (Q * Kᵀ)
      + (Matrix.of fun _ j => if mask j ≤ 0 then -(10 : ℝ) ^ 10 else 0 : Matrix (Fin L) (Fin L) ℝ)) i j
      = ∑ e, Q i e / Real.sqrt d * K j e + attnBias mask j := by
    intro j
    rw [Matrix.add_apply, Matrix.smul_apply, Matrix.mul_apply, Matrix.of_apply, smul_eq_mul, Finset.mul_sum]
    congr 1
    · exact Finset.sum_congr rfl fun e _ => by rw [Matrix.transpose_apply]; ring
    · unfold attnBias
      by_cases h : mask j ≤ 0
      · rw [if_pos h, if_neg (not_lt.2 h)]; norm_num
      · rw [if_neg h, if_pos (not_le.1 h)]
  simp only [softmaxRows, Matrix.of_apply, attnWeights, softmax, hs]

private theorem multiHead_eq (p : LayerParams s) (mask : Fin L → ℤ) (X : Seq L s.hidden) (i : Fin L) :
    multiHead p mask X i = selfAttention p mask X i := by
  funext c
  have hq : ∀ (p : DenseParams s.hidden s.hidden) (h : Fin s.heads),
      headCols (affine p X) h = fun l => splitHeads (dense p (X l)) h := by
    intro p h
    funext l e
    rw [headCols_eq, affine_eq]
  simp only [multiHead, Matrix.of_apply, selfAttention, mergeHeads, hq]
  exact attention_eq mask _ _ _ i _

private theorem layer_eq (hn : 0 < s.hidden) (mask : Fin L → ℤ) (p : LayerParams s) (X : Seq L s.hidden) :
    layer eps act mask p X = bertLayer eps act mask p X := by
  funext l
  have ha : ∀ l, Spec.Transformer.norm eps p.attnNorm (X + affine p.attnOut (multiHead p mask X)) l
      = layerNorm eps p.attnNorm fun h => dense p.attnOut (selfAttention p mask X l) h + X l h := by
    intro l
    rw [norm_eq hn]
    congr 1
    funext h
    rw [Matrix.add_apply, affine_eq, multiHead_eq, add_comm]
  unfold layer bertLayer
  simp only []
  rw [norm_eq hn]
  congr 1
  funext h
  rw [Matrix.add_apply, affine_eq, ha, add_comm]
  congr 2
  funext j
  rw [Matrix.map_apply, affine_eq, ha]

private theorem encoder_eq (hn : 0 < s.hidden) (mask : Fin L → ℤ) (ps : List (LayerParams s)) (X : Seq L s.hidden) :
    encoder eps act mask ps X = bertEncode eps act mask ps X := by
  unfold bertEncode
  induction ps generalizing X with
  | nil => rfl
  | cons p ps ih =>
    change encoder eps act mask ps (layer eps act mask p X) = ps.foldl _ (bertLayer eps act mask p X)
    rw [layer_eq hn]
    exact ih _

/-- The network without infilling is the transformer of the literature. -/
theorem bert_transformer (hn : 0 < s.hidden) (p : BertParams s) (inp : BertInput s L) :
    Spec.bert eps act tied p inp = logits eps act tied p inp := by
  have hX : Spec.Transformer.norm eps p.embed.norm (Matrix.of fun l h =>
      p.embed.word (inp.ids l) h + p.embed.position (inp.positions l) h + p.embed.type (inp.types l) h)
      = bertEmbed eps p.embed inp (k := 0) Fin.elim0 Fin.elim0 := by
    funext l
    rw [norm_eq hn]
    change layerNorm _ _ _ = layerNorm _ _ _
    congr 1
    funext h
    change _ = p.embed.word (inp.ids l) h + p.embed.type (inp.types l) h + p.embed.position (inp.positions l) h
    rw [Matrix.of_apply]
    ring
  have hE : ∀ l, encoder eps act inp.mask p.layers (Spec.Transformer.norm eps p.embed.norm (Matrix.of fun l h =>
      p.embed.word (inp.ids l) h + p.embed.position (inp.positions l) h + p.embed.type (inp.types l) h)) l
      = bertEncode eps act inp.mask p.layers (bertEmbed eps p.embed inp (k := 0) Fin.elim0 Fin.elim0) l := fun l =>
    (congrFun (encoder_eq hn _ _ _) l).trans (congrFun (congrArg (bertEncode eps act inp.mask p.layers) hX) l)
  suffices key : ∀ l v, logits eps act tied p inp l v = Spec.bert eps act tied p inp l v from
    funext fun l => funext fun v => (key l v).symm
  intro l v
  unfold logits
  rw [Matrix.add_apply, Matrix.mul_apply]
  change _ = ∑ h, _ + _
  congr 1
  refine Finset.sum_congr rfl fun h _ => ?_
  refine congrArg₂ (· * ·) ?_ (by cases tied <;> rfl)
  rw [norm_eq hn]
  refine congrFun (congrArg _ ?_) h
  funext j
  rw [Matrix.map_apply, affine_eq, hE]

/-- **C100.**  Called with the one-hot rows of tokens at distinct infill positions, the network computes the logits of the
transformer on the sentence completed by these tokens. -/
theorem bertLogits_transformer (hn : 0 < s.hidden) (p : BertParams s) (inp : BertInput s L) (pos : Fin k → Fin L)
    (hp : Function.Injective pos) (t : Fin k → Fin s.vocab) :
    bertLogits eps act tied p inp pos (Spec.rowsOf t)
      = logits eps act tied p { inp with ids := Spec.completed inp pos t } := by
  rw [bertLogits_completed p inp pos hp t, bert_transformer hn]

/-- A network with one layer, two heads and two words, on a sentence with a blank in the middle. -/
example (p : BertParams ⟨2, 2, 3, 4, 8, 1⟩) (t : Fin 1 → Fin 2) :
    bertLogits 1e-12 Real.tanh true p ⟨fun _ => 0, fun _ => 0, fun l => ⟨l, l.isLt.trans (by decide)⟩, fun _ => 1⟩
        (fun _ : Fin 1 => (1 : Fin 3)) (Spec.rowsOf t)
      = logits 1e-12 Real.tanh true p
        ⟨fun l => if l = 1 then t 0 else 0, fun _ => 0, fun l => ⟨l, l.isLt.trans (by decide)⟩, fun _ => 1⟩ := by
  have hp : Function.Injective (fun _ : Fin 1 => (1 : Fin 3)) := fun _ _ _ => Subsingleton.elim _ _
  rw [bertLogits_transformer (by decide) p _ _ hp]
  congr 2
  funext l
  by_cases h : l = 1
  · subst h
    rw [if_pos rfl]
    exact completed_pos (s := ⟨2, 2, 3, 4, 8, 1⟩) ⟨fun _ => 0, fun _ => 0, fun l => ⟨l, l.isLt.trans (by decide)⟩, fun _ => 1⟩ _ hp t 0
  · rw [if_neg h]
    exact completed_off (s := ⟨2, 2, 3, 4, 8, 1⟩) ⟨fun _ => 0, fun _ => 0, fun l => ⟨l, l.isLt.trans (by decide)⟩, fun _ => 1⟩ _ t l
      fun _ e => h e.symm

end Discs
