import Mathlib.Analysis.SpecialFunctions.Log.Basic
import Verif.Model.Jax

/-!
# Model of `discs/common/math_util.py`

Floats are real numbers; `-inf` is `⊥ : WithBot ℝ` where the code produces it.  Random noise is an explicit argument.
-/

namespace Discs

/-- The offset added to the uniform noise, `math_util.py:154` (`1e-24`). -/
noncomputable def mhTiny : ℝ := 1e-24

/-- `math_util.py:152-154` `bernoulli_logp`: `jnp.log(noise + 1e-24) < log_prob`, one entry.
`noise` is the uniform draw on `[0, 1)`; the constant `1e-24` is the argument `tiny` (the code is
`tiny = mhTiny`) so that theorems can also speak about the idealised test `tiny = 0`.
NaN log-probabilities are not represented. -/
noncomputable def bernoulliLogp (tiny noise logProb : ℝ) : Prop := Real.log (noise + tiny) < logProb

open Classical in
/-- `math_util.py:157-166` `mh_step`: row `b` of the result is the new row if the acceptance test of
row `b` succeeded, else the current row (`jnp.where` with the flag broadcast over the row).
`X` is the type of one row. -/
noncomputable def mhStep {B : ℕ} {X : Type*} (tiny : ℝ) (noise logProb : Fin B → ℝ)
    (cur new : Fin B → X) : (Fin B → X) × (Fin B → Prop) :=
  let useNew : Fin B → Prop := fun b => bernoulliLogp tiny (noise b) (logProb b)
  (fun b => if useNew b then new b else cur b, useNew)

/-- `math_util.py:12-16` `prod`: left-to-right product of the entries. -/
def prod (l : List ℕ) : ℕ := l.foldl (· * ·) 1

/-- `math_util.py:8-9` `comb`: `int(x! / (y! * (x-y)!))`.  The float division is modelled by exact
integer division (the quotient is an integer; the float result is exact below `2^53`).
`math.factorial` of a negative number raises, hence the error branch when `x < y`. -/
def comb (x y : ℕ) : Except String ℕ :=
  if x < y then .error "factorial() not defined for negative values"
  else .ok (x.factorial / (y.factorial * (x - y).factorial))

open Finset

/-- `exp` of a float that may be `-inf`. -/
noncomputable def expE : WithBot ℝ → ℝ
  | ⊥ => 0
  | (r : ℝ) => Real.exp r

/-- `jnp.log` of a non-negative float: `log 0 = -inf`. -/
noncomputable def logE (x : ℝ) : WithBot ℝ := if x = 0 then ⊥ else (Real.log x : ℝ)

/-- `math_util.py:30-34` `log1mexp`, both branches as written (`expm1 x = exp x - 1`,
`log1p x = log (1 + x)`).  At `-inf` the second branch gives `log1p(-0) = 0`; at `0` the first branch
gives `log 0 = -inf`. -/
noncomputable def log1mexp : WithBot ℝ → WithBot ℝ
  | ⊥ => ((0 : ℝ) : WithBot ℝ)
  | (r : ℝ) =>
    let x := -|r|
    if x > -0.693 then logE (-(Real.exp x - 1)) else logE (1 + -Real.exp x)

/-- `jnp.clip(ll - l, a_max=0.0)`: subtracting `-inf` gives `+inf`, which is clipped to `0`;
`-inf` minus a finite number is `-inf`.  (`-inf - -inf`, an impossible draw after the mass is exhausted, is NaN in
Python and 0 here.) -/
noncomputable def subClip : WithBot ℝ → WithBot ℝ → WithBot ℝ
  | _, ⊥ => ((0 : ℝ) : WithBot ℝ)
  | ⊥, (_ : ℝ) => ⊥
  | (a : ℝ), (b : ℝ) => ((clipMax (a - b) 0 : ℝ) : WithBot ℝ)

/-- `math_util.py:37-42` `noreplacement_sampling_renormalize` along one axis of length `n`.
`llBase` is the maximum entry (the all `-inf` vector, where Python gives NaN, is read as base `0`);
`cumsum - prob` is the sum of the entries up to and including `i`, minus entry `i`. -/
noncomputable def renormalize {n : ℕ} (ll : Fin n → WithBot ℝ) : Fin n → WithBot ℝ :=
  let llBase : ℝ := (univ.sup ll).unbotD 0
  let probIdx : Fin n → ℝ := fun i => expE ((ll i).map (· - llBase))
  let llDelta : Fin n → WithBot ℝ := fun i =>
    (logE ((∑ j ∈ univ.filter (· ≤ i), probIdx j) - probIdx i)).map (· + llBase)
  fun i => subClip (ll i) (log1mexp (llDelta i))

/-- `math_util.py:23-27` `gumbel`, one entry; `u` is the uniform draw on `[0, 1)`.  At `u = 0` Python gives
`-inf`, the model (`Real.log 0 = 0`) gives `loc`; this has probability zero. -/
noncomputable def gumbel (loc u : ℝ) : ℝ := loc - Real.log (-Real.log u)

open Classical in
/-- `math_util.py:82-83` index form of sampling without replacement: `jax.lax.top_k` of the perturbed
scores, best first, ties broken by lower index (stable sort). -/
noncomputable def topK {n : ℕ} (g : Fin n → ℝ) (k : ℕ) : List (Fin n) :=
  ((List.finRange n).mergeSort (fun a b => decide (g b ≤ g a))).take k

open Classical in
/-- `math_util.py:121` `jnp.sort`: ascending. -/
noncomputable def sortAsc {n : ℕ} (g : Fin n → ℝ) : List ℝ :=
  ((List.finRange n).map g).mergeSort (fun a b => decide (a ≤ b))

open Classical in
/-- `jnp.argsort`: indices in ascending order of score, ties by lower index.  `jnp.argsort(-g)`
(`math_util.py:135`) is `topK g n`. -/
noncomputable def argsort {n : ℕ} (g : Fin n → ℝ) : List (Fin n) :=
  (List.finRange n).mergeSort (fun a b => decide (g a ≤ g b))

/-- `math_util.py:120-125` mask form: entries at least the `(n - k)`-th smallest perturbed score.
The index `n - k` is in range for `1 ≤ k ≤ n`; otherwise the model has no threshold (`none`). -/
noncomputable def selectedMask {n : ℕ} (g : Fin n → ℝ) (k : ℕ) : Option (Fin n → Prop) :=
  if 1 ≤ k ∧ k ≤ n then
    ((sortAsc g)[n - k]?).map fun threshold => fun i => threshold ≤ g i
  else none

/-- `math_util.py:94-117`, one row: counting draws with replacement in batches of `bs`.
`draws t k` is the categorical draw number `k` of loop iteration `t`.  The loop adds the one-hot of
draw `k` only if `k + cnt < num`, then advances `cnt` by `bs`. -/
def countLoop {n : ℕ} (bs : ℕ) (hbs : 0 < bs) (num : ℕ) (draws : ℕ → Fin bs → Fin n) (t cnt : ℕ)
    (total : Fin n → ℕ) : Fin n → ℕ :=
  if cnt < num then
    countLoop bs hbs num draws (t + 1) (cnt + bs)
      (fun c => total c + ∑ k : Fin bs,
        (if draws t k = c then 1 else 0) * (if (k : ℕ) + cnt < num then 1 else 0))
  else total
termination_by num - cnt

/-- `math_util.py:107-118`: the loop started from zero counts. -/
def multinomialCounts {n : ℕ} (bs : ℕ) (hbs : 0 < bs) (num : ℕ) (draws : ℕ → Fin bs → Fin n) :
    Fin n → ℕ := countLoop bs hbs num draws 0 0 (fun _ => 0)

end Discs
