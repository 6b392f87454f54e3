import Verif.Model.JobNames

/-!
# Model of the ticks of `discs/plot_results/plot_results.py`

`get_ticks_and_sorted_experiments` (`plot_results.py:324-348`): the value by which a folder is sorted and which is written
below its bars.
-/

namespace Discs

/-- The digits after the point. -/
def fracDigits : List Char → ℚ
  | [] => 0
  | c :: l => ((c.toNat - '0'.toNat : ℕ) + fracDigits l) / 10

/-- `float` of a text without sign: digits, a point with digits, an exponent (`plot_results.py:338`).  Spaces,
underscores, `inf` and `nan`, which Python reads as well, are not modelled; `none` is the `ValueError`. -/
def readPos (s : List Char) : Option ℚ :=
  let ip := s.takeWhile Char.isDigit
  let r := s.dropWhile Char.isDigit
  let fr := match r with
    | '.' :: r => r.takeWhile Char.isDigit
    | _ => []
  let r := match r with
    | '.' :: r => r.dropWhile Char.isDigit
    | r => r
  let m : ℚ := Nat.ofDigitChars 10 ip 0 + fracDigits fr
  let ok (e : List Char) : Bool := !e.isEmpty && e.all Char.isDigit
  if ip = [] ∧ fr = [] then none
  else match r with
    | [] => some m
    | 'e' :: '-' :: e => if ok e then some (m / 10 ^ Nat.ofDigitChars 10 e 0) else none
    | 'e' :: '+' :: e => if ok e then some (m * 10 ^ Nat.ofDigitChars 10 e 0) else none
    | 'e' :: e => if ok e then some (m * 10 ^ Nat.ofDigitChars 10 e 0) else none
    | _ => none

/-- `float` of a text. -/
def readNum : List Char → Option ℚ
  | '-' :: s => (readPos s).map fun q => -q
  | s => readPos s

/-- The text of the swept key in a folder name (`plot_results.py:332-336`); `find` is `-1` if the key is not there. -/
def tickText (key folder : List Char) : List Char :=
  let s := match findWord key folder with
    | some i => folder.drop (1 + i + key.length)
    | none => folder.drop key.length
  let s := s.takeWhile (· != ',')
  match s.idxOf? '(' with
  | some j => s.drop (1 + j)
  | none => s

/-- A tick: a number or a text. -/
inductive Tick
  | num (z : ℤ)
  | text (s : List Char)
  deriving DecidableEq

/-- The tick of a folder (`plot_results.py:337-340`): `int` cuts the fraction off. -/
def tickValue (key folder : List Char) : Tick :=
  match readNum (tickText key folder) with
  | some q => .num (if 0 ≤ q then q.floor else -(-q).floor)
  | none => .text (tickText key folder)

end Discs
