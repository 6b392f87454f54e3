import Verif.Model.Jax
import Verif.Model.Loader

/-!
# Model of the text-infilling task

`discs/common/utils.py:208-316` (`create_infill_dataset`), `discs/models/text_infilling.py` and the
outer loops of `Text_Infilling_Experiment` (`discs/experiment/sampling.py:349-414`).

Words and tokens are types; the BERT network is an arbitrary function from the one-hot rows at the
infill positions to logits at those positions (the rest of the sentence is fixed); the tokenizer is
an arbitrary function.
-/

namespace Discs

open Finset

/-! ### `create_infill_dataset` -/

/-- One entry of `infilling_task.json` (`utils.py:254-258`). -/
structure InfillDatum (W : Type*) where
  gt : List W
  masked : List W
  infillPos : List ℕ
  deriving DecidableEq

variable {L W Tok : Type*}

/-- `for pos in infill_pos: list[pos] = '[MASK]'` (`utils.py:245-246`, `290-291`). -/
def maskWords (mask : W) (ws : List W) (pos : List ℕ) : List W := pos.foldl (fun l p => l.set p mask) ws

/-- `infill_pos` after tokenisation (`utils.py:248-252`, `293-297`): one more than the index of every
mask token, the first token being `[CLS]`. -/
def infillPositions [DecidableEq Tok] (maskTok : Tok) (tokens : List Tok) : List ℕ :=
  (tokens.zipIdx.filter fun ti => decide (ti.1 = maskTok)).map fun ti => ti.2 + 1

/-- State of the loop over lines: entries so far and reference lines so far. -/
structure InfillState (L W : Type*) where
  data : List (InfillDatum W)
  used : List L
  refs : List L

/-- The loop over the (shuffled) lines of one corpus (`utils.py:232-262`, `278-307`): `clean` stands for
the replacements and `split(' ')`; `choose l` are the positions drawn for line `l`
(`random.choice(range(1, len - 1), num_of_masks, replace=False)`).  `none` is the `ValueError` of that
call when fewer than `num_of_masks` positions exist.  The component `used` is bookkeeping for the
theorems, not in the code. -/
def infillLoop [DecidableEq Tok] (limit minLen maxLen numMasks : ℕ) (clean : L → List W) (mask : W)
    (maskTok : Tok) (tokenize : List W → List Tok) (choose : L → List ℕ) :
    List L → InfillState L W → Option (InfillState L W)
  | [], s => some s
  | l :: rest, s =>
    if s.data.length < limit ∧ (clean l).length ≤ maxLen ∧ minLen ≤ (clean l).length then
      if (clean l).length - 2 < numMasks then none
      else
        let masked := maskWords mask (clean l) (choose l)
        infillLoop limit minLen maxLen numMasks clean mask maskTok tokenize choose rest
          ⟨s.data ++ [⟨clean l, masked, infillPositions maskTok (tokenize masked)⟩], s.used ++ [l], s.refs⟩
    else
      infillLoop limit minLen maxLen numMasks clean mask maskTok tokenize choose rest
        ⟨s.data, s.used, s.refs ++ [l]⟩

/-- `create_infill_dataset` (`utils.py:226-316`): first the book corpus up to `n` entries, then the wiki
corpus up to `2 n` entries in total.  Returns the task entries and the two reference files (with the
lines used).  `none` also for an empty corpus: the first line is printed (`utils.py:229`, `utils.py:273`), which raises
`IndexError`. -/
def createInfill [DecidableEq Tok] (n minLen maxLen numMasks : ℕ) (cleanT cleanW : L → List W) (mask : W)
    (maskTok : Tok) (tokenize : List W → List Tok) (choose : L → List ℕ) (tbc wiki : List L) :
    Option (List (InfillDatum W) × InfillState L W × InfillState L W) := do
  if tbc.isEmpty then none
  let t ← infillLoop n minLen maxLen numMasks cleanT mask maskTok tokenize choose tbc ⟨[], [], []⟩
  if wiki.isEmpty then none
  let w ← infillLoop (2 * n) minLen maxLen numMasks cleanW mask maskTok tokenize choose wiki
    ⟨t.data, [], []⟩
  return (w.data, t, w)

/-! ### The model -/

/-- `x.at[r, c].set(v)` on an array with `R` rows: JAX drops updates outside the array. -/
def atSet {R C : ℕ} (a : Fin R → Fin C → ℝ) (r c : ℕ) (v : ℝ) : Fin R → Fin C → ℝ := fun i j =>
  if i.val = r ∧ j.val = c then v else a i j

/-- `mask_dummy_array` of `single_forward` (`text_infilling.py:124-125`): an array with one row,
updated at row 1. -/
def tiMaskRow (V maskToken : ℕ) : Fin V → ℝ :=
  atSet (R := 1) (fun _ _ => 0) 1 maskToken 1 0

/-- `single_forward` (`text_infilling.py:119-143`) on one-hot rows (of shape `[k, V]`, the leading axis of
length one added at line 122 is dropped): every position in turn is replaced by `mask_dummy_array`. -/
noncomputable def tiForward {k V : ℕ} (maskToken : ℕ) (net : (Fin k → Fin V → ℝ) → Fin k → Fin V → ℝ)
    (x : Fin k → Fin V → ℝ) : ℝ :=
  ∑ i, ∑ v, logSoftmax (net (Function.update x i (tiMaskRow V maskToken)) i) v * x i v

/-- The same on token ids (`text_infilling.py:120-121`); when the number of positions equals the number
of categories the ids are not one-hot encoded, which is left out. -/
noncomputable def tiEnergy {k V : ℕ} (maskToken : ℕ) (net : (Fin k → Fin V → ℝ) → Fin k → Fin V → ℝ)
    (x : Fin k → ℤ) : ℝ := tiForward maskToken net fun i => oneHot V (x i)

/-- The rows `get_init_samples` gives to the network (`text_infilling.py:90-93`): here the mask is set
in every row. -/
def tiInitRows (k V maskToken : ℕ) : Fin k → Fin V → ℝ := fun _ j => if j.val = maskToken then 1 else 0

/-- Law of the initial sample (`text_infilling.py:94-103`). -/
noncomputable def tiInitLaw {k V : ℕ} (maskToken : ℕ) (net : (Fin k → Fin V → ℝ) → Fin k → Fin V → ℝ)
    (v : Fin k → Fin V) : ℝ := ∏ i, softmax (net (tiInitRows k V maskToken) i) (v i)

/-- `decode` (`text_infilling.py:46-51`): write the sampled tokens at the infill positions, drop the
first and the last token. -/
def tiDecode (ids : List Tok) (pos : List ℕ) (x : List Tok) : List Tok :=
  (((pos.zip x).foldl (fun l pv => l.set pv.1 pv.2) ids).drop 1).dropLast

/-! ### Resampling and top-k (`sampling.py:376-414`) -/

/-- The loop over resamplings (`sampling.py:389-395`): every run starts from the same sample and state and
continues the key of the run before. -/
def resampleLoop {K S : Type*} (run : K → S × K × ℝ) : ℕ → K → List (S × ℝ)
  | 0, _ => []
  | n + 1, key => ((run key).1, (run key).2.2) :: resampleLoop run n (run key).2.1

/-- `str(i) + ' ' + sent` (`sampling.py:392`); strings are lists of characters. -/
def addPrefix (i : ℕ) (sent : List Char) : List Char := Nat.toDigits 10 i ++ ' ' :: sent

/-- `list[-n:]`. -/
def lastN {α : Type*} (n : ℕ) (l : List α) : List α := if n = 0 then l else l.drop (l.length - n)

/-- `sampling.py:388-414`: the sentences and the top-k sentences returned for one masked sentence. -/
noncomputable def textSentences (useTopk : Bool) (topkNum : ℕ) (out : List (List Char × ℝ)) :
    List (List Char) × List (List Char) :=
  if useTopk then
    let prefixed := out.mapIdx fun i sl => (addPrefix i sl.1, sl.2)
    let dict := prefixed.foldl (fun d kv => dictSet d kv.1 kv.2) []
    let sorted := dict.mergeSort fun a b => decide (a.2 ≤ b.2)
    ((prefixed.map fun kv => kv.1.drop 2), (lastN topkNum (sorted.map Prod.fst)).map fun s => s.drop 2)
  else (out.map Prod.fst, [])

/-- Arguments of a Python call, as far as `jax.jit` tells them apart. -/
inductive PyArg where
  | array (v : List ℝ)
  | str (s : List Char)
  | list (l : List PyArg)

mutual
/-- Arguments `jax.jit` accepts without `static_argnums`: trees whose leaves are arrays or numbers; a
`str` leaf raises `TypeError` ("is not a valid JAX type"). -/
def jitAccepts : PyArg → Bool
  | .array _ => true
  | .str _ => false
  | .list l => jitAcceptsAll l
/-- All leaves of the list are accepted. -/
def jitAcceptsAll : List PyArg → Bool
  | [] => true
  | a :: l => jitAccepts a && jitAcceptsAll l
end

/-- `jax.jit(f)(args)`; `none` is the `TypeError`. -/
def jitCall {R : Type*} (f : List PyArg → R) (args : List PyArg) : Option R :=
  if jitAcceptsAll args then some (f args) else none

/-- `Text_Infilling_Experiment.get_results` (`sampling.py:352-374`) after the loop over the masked
sentences: `sents` holds what each sentence gave.  Line 353 jits the evaluator, line 367 calls it on the
list of sentences and the data directory; the top-k evaluation is not jitted (line 369). -/
def textResults {R : Type*} (evaluate : List PyArg → R) (dataRoot : List Char)
    (sents : List (List (List Char) × List (List Char))) (useTopk : Bool) : Option (R × Option R) := do
  let res ← jitCall evaluate [.list ((sents.flatMap Prod.fst).map .str), .str dataRoot]
  return (res,
    if useTopk then some (evaluate [.list ((sents.flatMap Prod.snd).map .str), .str dataRoot])
    else none)

end Discs
