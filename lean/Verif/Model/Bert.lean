import Mathlib.Analysis.SpecialFunctions.Sqrt
import Mathlib.Logic.Equiv.Fin.Basic
import Verif.Model.TextInfill

/-!
# Model of `discs/common/customized_huggingface_flax_bert.py`

The masked language model behind the text-infilling energy, layer by layer, over the reals.  Arrays lose their batch
axis: every operation treats the members of a batch separately and text infilling uses batches of one.  The model
is called without `train`, so `deterministic` is set and dropout is the identity.  The pooler, the next-sentence head
and `FlaxBertForPreTraining` do not take part in `FlaxBertForMaskedLM_Infilling` and are left out, as are the optional
outputs (`output_attentions`, `output_hidden_states`).  Loading of pretrained weights is left out: the parameters are
arguments.  `ACT2FN[config.hidden_act]` is an arbitrary function `act`.
-/

namespace Discs

open Finset

/-- Sizes of a `BertConfig`. -/
structure BertSizes where
  /-- `vocab_size`. -/
  vocab : ℕ
  /-- `num_attention_heads`. -/
  heads : ℕ
  /-- `hidden_size // num_attention_heads`; `setup` of the attention raises an error if there is a remainder. -/
  headDim : ℕ
  /-- `intermediate_size`. -/
  inter : ℕ
  /-- `max_position_embeddings`. -/
  maxPos : ℕ
  /-- `type_vocab_size`. -/
  types : ℕ

/-- `hidden_size`. -/
abbrev BertSizes.hidden (s : BertSizes) : ℕ := s.heads * s.headDim

/-- Parameters of `nn.Dense`. -/
structure DenseParams (m n : ℕ) where
  kernel : Fin m → Fin n → ℝ
  bias : Fin n → ℝ

/-- Parameters of `nn.LayerNorm`. -/
structure NormParams (n : ℕ) where
  scale : Fin n → ℝ
  bias : Fin n → ℝ

/-- `nn.Dense` on one vector. -/
noncomputable def dense {m n : ℕ} (p : DenseParams m n) (x : Fin m → ℝ) : Fin n → ℝ :=
  fun j => ∑ i, x i * p.kernel i j + p.bias j

/-- Mean of a vector. -/
noncomputable def vecMean {n : ℕ} (x : Fin n → ℝ) : ℝ := (∑ i, x i) / n

/-- The variance as `nn.LayerNorm` computes it: mean of squares minus square of the mean, at least zero. -/
noncomputable def vecVar {n : ℕ} (x : Fin n → ℝ) : ℝ := max 0 (vecMean (fun i => x i ^ 2) - vecMean x ^ 2)

/-- `nn.LayerNorm(epsilon=eps)` on one vector. -/
noncomputable def layerNorm {n : ℕ} (eps : ℝ) (p : NormParams n) (x : Fin n → ℝ) : Fin n → ℝ :=
  fun i => (x i - vecMean x) * ((Real.sqrt (vecVar x + eps))⁻¹ * p.scale i) + p.bias i

/-- Parameters of `FlaxBertEmbeddings` (lines 151-171). -/
structure EmbedParams (s : BertSizes) where
  word : Fin s.vocab → Fin s.hidden → ℝ
  position : Fin s.maxPos → Fin s.hidden → ℝ
  type : Fin s.types → Fin s.hidden → ℝ
  norm : NormParams s.hidden

/-- `one_hot_embeddings` (lines 173-175). -/
noncomputable def oneHotEmbed {V H k : ℕ} (word : Fin V → Fin H → ℝ) (x : Fin k → Fin V → ℝ) : Fin k → Fin H → ℝ :=
  fun i h => ∑ v, x i v * word v h

/-- `a.at[:, pos, :].set(rows)`: the rows are written at the positions one after the other. -/
def setRows {L k : ℕ} {α : Type*} (a : Fin L → α) (pos : Fin k → Fin L) (rows : Fin k → α) : Fin L → α :=
  (List.finRange k).foldl (fun b i => Function.update b (pos i) (rows i)) a

/-- A tokenised sentence (the arguments `input_ids`, `attention_mask`, `token_type_ids`, `position_ids`). -/
structure BertInput (s : BertSizes) (L : ℕ) where
  ids : Fin L → Fin s.vocab
  types : Fin L → Fin s.types
  positions : Fin L → Fin s.maxPos
  mask : Fin L → ℤ

/-- `FlaxBertEmbeddings.__call__` (lines 177-193). -/
noncomputable def bertEmbed {s : BertSizes} {L k : ℕ} (eps : ℝ) (p : EmbedParams s) (inp : BertInput s L)
    (pos : Fin k → Fin L) (x : Fin k → Fin s.vocab → ℝ) : Fin L → Fin s.hidden → ℝ :=
  let words := setRows (fun l => p.word (inp.ids l)) pos (oneHotEmbed p.word x)
  fun l => layerNorm eps p.norm fun h => words l h + p.type (inp.types l) h + p.position (inp.positions l) h

/-- Parameters of `FlaxBertLayer` (lines 200-221, 275-282, 321-327, 339-346, 359-362). -/
structure LayerParams (s : BertSizes) where
  query : DenseParams s.hidden s.hidden
  key : DenseParams s.hidden s.hidden
  value : DenseParams s.hidden s.hidden
  attnOut : DenseParams s.hidden s.hidden
  attnNorm : NormParams s.hidden
  inter : DenseParams s.hidden s.inter
  out : DenseParams s.inter s.hidden
  outNorm : NormParams s.hidden

/-- `reshape(shape[:2] + (heads, head_dim))` of one position (lines 226-234). -/
def splitHeads {a d : ℕ} (x : Fin (a * d) → ℝ) (h : Fin a) (j : Fin d) : ℝ := x (finProdFinEquiv (h, j))

/-- `reshape(shape[:2] + (-1,))` of one position (line 265). -/
def mergeHeads {a d : ℕ} (x : Fin a → Fin d → ℝ) (i : Fin (a * d)) : ℝ :=
  x (finProdFinEquiv.symm i).1 (finProdFinEquiv.symm i).2

/-- `attention_bias` (lines 237-244). -/
noncomputable def attnBias {L : ℕ} (mask : Fin L → ℤ) (l : Fin L) : ℝ := if 0 < mask l then 0 else -1e10

/-- `dot_product_attention_weights` of flax for one head (lines 252-262): queries are divided by the root of the
depth, the bias is added, and the softmax runs over the keys. -/
noncomputable def attnWeights {L d : ℕ} (q k : Fin L → Fin d → ℝ) (bias : Fin L → ℝ) (i : Fin L) : Fin L → ℝ :=
  softmax fun j => ∑ e, q i e / Real.sqrt d * k j e + bias j

/-- `FlaxBertSelfAttention.__call__` (lines 223-268). -/
noncomputable def selfAttention {s : BertSizes} {L : ℕ} (p : LayerParams s) (mask : Fin L → ℤ)
    (x : Fin L → Fin s.hidden → ℝ) : Fin L → Fin s.hidden → ℝ :=
  let q := fun l => splitHeads (dense p.query (x l))
  let k := fun l => splitHeads (dense p.key (x l))
  let v := fun l => splitHeads (dense p.value (x l))
  fun i => mergeHeads fun h e => ∑ j, attnWeights (fun l => q l h) (fun l => k l h) (attnBias mask) i j * v j h e

/-- `FlaxBertLayer.__call__` (lines 284-288, 299-314, 329-332, 348-352, 364-377). -/
noncomputable def bertLayer {s : BertSizes} {L : ℕ} (eps : ℝ) (act : ℝ → ℝ) (mask : Fin L → ℤ) (p : LayerParams s)
    (x : Fin L → Fin s.hidden → ℝ) : Fin L → Fin s.hidden → ℝ :=
  let a : Fin L → Fin s.hidden → ℝ :=
    fun l => layerNorm eps p.attnNorm fun h => dense p.attnOut (selfAttention p mask x l) h + x l h
  fun l => layerNorm eps p.outNorm fun h => dense p.out (fun j => act (dense p.inter (a l) j)) h + a l h

/-- Parameters of the network. -/
structure BertParams (s : BertSizes) where
  embed : EmbedParams s
  layers : List (LayerParams s)
  transform : DenseParams s.hidden s.hidden
  transformNorm : NormParams s.hidden
  /-- Kernel of the decoder; used only without `tie_word_embeddings`. -/
  decoder : Fin s.hidden → Fin s.vocab → ℝ
  bias : Fin s.vocab → ℝ

/-- `FlaxBertLayerCollection.__call__` (lines 398-411). -/
noncomputable def bertEncode {s : BertSizes} {L : ℕ} (eps : ℝ) (act : ℝ → ℝ) (mask : Fin L → ℤ)
    (layers : List (LayerParams s)) (x : Fin L → Fin s.hidden → ℝ) : Fin L → Fin s.hidden → ℝ :=
  layers.foldl (fun h p => bertLayer eps act mask p h) x

/-- `FlaxBertLMPredictionHead.__call__` (lines 479-504) on one position; `tied` is `tie_word_embeddings`
(lines 822-825). -/
noncomputable def bertHead {s : BertSizes} (eps : ℝ) (act : ℝ → ℝ) (tied : Bool) (p : BertParams s)
    (x : Fin s.hidden → ℝ) : Fin s.vocab → ℝ :=
  let t := layerNorm eps p.transformNorm fun h => act (dense p.transform x h)
  fun v => ∑ h, t h * (if tied then p.embed.word v h else p.decoder h v) + p.bias v

/-- `FlaxBertForMaskedLM_Infilling.__call__(…).logits` (lines 577-626, 639-660, 793-832). -/
noncomputable def bertLogits {s : BertSizes} {L k : ℕ} (eps : ℝ) (act : ℝ → ℝ) (tied : Bool) (p : BertParams s)
    (inp : BertInput s L) (pos : Fin k → Fin L) (x : Fin k → Fin s.vocab → ℝ) : Fin L → Fin s.vocab → ℝ :=
  fun l => bertHead eps act tied p (bertEncode eps act inp.mask p.layers (bertEmbed eps p.embed inp pos x) l)

/-- The network as `single_forward` and `get_init_samples` use it (`text_infilling.py:94-102, 129-138`): the logits at
the infill positions. -/
noncomputable def bertNet {s : BertSizes} {L k : ℕ} (eps : ℝ) (act : ℝ → ℝ) (tied : Bool) (p : BertParams s)
    (inp : BertInput s L) (pos : Fin k → Fin L) (x : Fin k → Fin s.vocab → ℝ) : Fin k → Fin s.vocab → ℝ :=
  fun i => bertLogits eps act tied p inp pos x (pos i)

/-- `single_forward` on token ids with the check of line 120: with as many positions as categories the ids are
taken for one-hot rows, the array has two axes instead of three, and `x.at[:, i, :]` is an `IndexError` (`none`).
(There are always categories.) -/
noncomputable def tiSingleForward {k V : ℕ} (maskToken : ℕ) (net : (Fin k → Fin V → ℝ) → Fin k → Fin V → ℝ)
    (x : Fin k → ℤ) : Option ℝ :=
  if k = V then none else some (tiEnergy maskToken net x)

end Discs
