import Mathlib.Data.List.Infix
import Mathlib.Data.Rat.Defs
import Mathlib.Data.Rat.Floor

/-!
# Model of the language-model evaluator (`discs/evaluators/lm_eval.py`)

Sentences are lists of tokens of a type `W`; reading lines and `strip().split()` (`lm_eval.py:14,96`)
is left to the caller, lower-casing is an arbitrary function on tokens.  BLEU (`nltk`) is an arbitrary
partial function of references and hypotheses here; `Model/Bleu.lean` has the library's.  `none` stands for an
exception (`ZeroDivisionError`, and what BLEU raises).
-/

namespace Discs

variable {W : Type*} [DecidableEq W]

-- phrases are compared with the equality test derived from decidable equality
attribute [-instance] List.instBEq

/-- `prepare_data` after splitting (`lm_eval.py:15-21`): lower-case every token, then apply the
replacements one after the other. -/
def lmPrepare (lower : W → W) (uncased : Bool) (repl : List (W × W)) (data : List (List W)) :
    List (List W) :=
  repl.foldl (fun data kv => data.map fun sent => sent.map fun t => if t ≠ kv.1 then t else kv.2)
    (if uncased then data.map fun sent => sent.map lower else data)

omit [DecidableEq W] in
/-- `nltk.util.ngrams(sent, n)` without padding (used at `lm_eval.py:60`): the windows of length `n`,
none if the sentence is shorter. -/
def ngrams (n : ℕ) (sent : List W) : List (List W) :=
  (List.range (sent.length + 1 - n)).map fun k => (sent.drop k).take n

/-- One update of `collections.Counter`: increment the entry, or insert it with count one. -/
def counterAdd {K : Type*} [DecidableEq K] : List (K × ℕ) → K → List (K × ℕ)
  | [], k => [(k, 1)]
  | (k', c) :: l, k => if k' = k then (k', c + 1) :: l else (k', c) :: counterAdd l k

/-- `Counter(iterable)`. -/
def counter {K : Type*} [DecidableEq K] (l : List K) : List (K × ℕ) := l.foldl counterAdd []

/-- `get_ngram_counts` at size `n` (`lm_eval.py:57-61`). -/
def ngramCounts (sents : List (List W)) (n : ℕ) : List (List W × ℕ) :=
  counter (sents.flatMap (ngrams n))

/-- `ref_unique_ngrams` at size `n` (`lm_eval.py:69-74`): number of *distinct* n-grams of the
predictions missing from the references over the number of n-gram *occurrences* of the predictions. -/
def refUnique (preds refs : List (List W)) (n : ℕ) : Option ℚ :=
  let predKeys := (ngramCounts preds n).map Prod.fst
  let total := ((ngramCounts preds n).map Prod.snd).sum
  let refKeys := (ngramCounts refs n).map Prod.fst
  if total = 0 then none
  else some (((predKeys.filter fun k => decide (k ∉ refKeys)).length : ℚ) / total)

/-- `self_unique_ngrams` at size `n` (`lm_eval.py:82-84`). -/
def selfUnique (preds : List (List W)) (n : ℕ) : Option ℚ :=
  let nUnique := ((ngramCounts preds n).filter fun kv => decide (kv.2 = 1)).length
  let total := ((ngramCounts preds n).map Prod.snd).sum
  if total = 0 then none else some ((nUnique : ℚ) / total)

/-- The loops `for i in range(1, max_n + 1)` (`lm_eval.py:68-74,81-84`): a division by zero at any size
ends the evaluation. -/
def upTo (f : ℕ → Option ℚ) (maxN : ℕ) : Option (List ℚ) :=
  (List.range maxN).mapM fun i => f (i + 1)

omit [DecidableEq W] in
/-- Reference lists of `self_bleu` (`lm_eval.py:50-53`). -/
def selfBleuRefs (sents : List (List W)) : List (List (List W)) :=
  (List.range sents.length).map fun i =>
    ((sents.zipIdx).filter fun sj => decide (sj.2 ≠ i)).map Prod.fst

/-- What `evaluate` returns (`lm_eval.py:87-119`), without the sentences themselves; `V` is the type of BLEU numbers. -/
structure LMResult (V : Type) where
  tbcBleu : V
  wikiBleu : V
  tbcWikiBleu : V
  selfBleu : Option V
  uniqueWiki : List ℚ
  uniqueTbc : List ℚ
  uniqueSelf : List ℚ

/-- The replacements of `prepare_wiki` and `prepare_tbc` (`lm_eval.py:24,30`) are parameters here:
`(unknown, [UNK])` and the two quotes.  `bleu` is `corpus_bleu` of the evaluator (`lm_eval.py:35-48`), `self` the call in
`self_bleu` (`lm_eval.py:50-56`), which uses other weights. -/
def lmEvaluate {V : Type} (lower : W → W) (wikiRepl tbcRepl : List (W × W))
    (bleu self : List (List (List W)) → List (List W) → Option V) (sents wiki tbc : List (List W)) (maxN : ℕ) :
    Option (LMResult V) := do
  let wikiData := lmPrepare lower true wikiRepl wiki
  let tbcData := lmPrepare lower true tbcRepl tbc
  let corpus := fun refs => bleu (List.replicate sents.length refs) sents
  let tb ← corpus tbcData
  let wb ← corpus wikiData
  let tw ← corpus (tbcData ++ wikiData)
  let selfB : Option (Option V) :=
    if 1 < sents.length then (self (selfBleuRefs sents) sents).map some else some none
  let sb ← selfB
  let uw ← upTo (refUnique sents wikiData) maxN
  let ut ← upTo (refUnique sents tbcData) maxN
  let us ← upTo (selfUnique sents) maxN
  return { tbcBleu := tb
           wikiBleu := wb
           tbcWikiBleu := tw
           selfBleu := sb
           uniqueWiki := uw
           uniqueTbc := ut
           uniqueSelf := us }

end Discs
