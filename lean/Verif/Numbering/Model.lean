import Verif.Basic

/-!
# Model of `quickly/numbering.py`

Python strings are `List Char`.
-/

namespace Quickly.Numbering

/-- The `roman_numerals` tuple, `quickly/numbering.py` L41-45. -/
def romanNumerals : List (List Char × Int) :=
  [ (['M'], 1000), (['C','M'], 900), (['D'], 500), (['C','D'], 400),
    (['C'], 100), (['X','C'], 90), (['L'], 50), (['X','L'], 40), (['X'], 10),
    (['I','X'], 9), (['V'], 5), (['I','V'], 4), (['I'], 1) ]

/-- The `for char, num in roman_numerals` loop, `quickly/numbering.py` L47-51:
`k, n = divmod(n, num)`, append `char * k`.  All divisors are positive, where
Python's floor division is Lean's `/` and `%` on `Int`.  A negative `k` would
give an empty string in Python, as `toNat` does here. -/
def romanLoop : List (List Char × Int) → Int → List Char
  | [], _ => []
  | (c, num) :: t, n => (List.replicate (n / num).toNat c).flatten ++ romanLoop t (n % num)

/-- `int2roman(n)`, `quickly/numbering.py` L30-51. -/
def int2roman (n : Int) : Py (List Char) :=
  if n < 1 then .error .valueError else .ok (romanLoop romanNumerals n)

/-- The `roman_numerals` dict, `quickly/numbering.py` L63. -/
def romanValue : Char → Option Int
  | 'I' => some 1
  | 'V' => some 5
  | 'X' => some 10
  | 'L' => some 50
  | 'C' => some 100
  | 'D' => some 500
  | 'M' => some 1000
  | _ => none

/-- The loop body of `roman2int` with its state `(num, prev)`,
`quickly/numbering.py` L64-72, over the already reversed characters. -/
def roman2intLoop : List Char → Int × Int → Py (Int × Int)
  | [], st => .ok st
  | c :: cs, (num, prev) =>
    match romanValue c with
    | none => .error .keyError
    | some val =>
      if val < prev then roman2intLoop cs (num - val, prev)
      else roman2intLoop cs (num + val, val)

/-- `roman2int(s)`, `quickly/numbering.py` L54-72.  Simplification: `str.upper`
is modelled for ASCII letters only (`Char.toUpper`). -/
def roman2int (s : List Char) : Py Int :=
  match roman2intLoop (s.map Char.toUpper).reverse (0, 0) with
  | .ok (num, _) => .ok num
  | .error e => .error e

/-- The `while n > 0` loop of `int2letter`, `quickly/numbering.py` L86-89, the
digits in the order of appending. -/
def letterLoop (mod : Nat) : Nat → List Nat
  | 0 => []
  | n + 1 => (n % mod) :: letterLoop mod (n / mod)
termination_by n => n
decreasing_by exact Nat.lt_succ_of_le (Nat.div_le_self _ _)

/-- `"".join(chars[c] for c in reversed(result))`, `quickly/numbering.py` L90. -/
def pick {α : Type} (chars : List α) : List Nat → Py (List α)
  | [] => .ok []
  | c :: cs =>
    match chars[c]? with
    | none => .error .indexError
    | some x => match pick chars cs with
      | .ok xs => .ok (x :: xs)
      | .error e => .error e

/-- `int2letter(n, chars)`, `quickly/numbering.py` L75-90.  With an empty
alphabet `divmod` raises ZeroDivisionError as soon as the loop is entered. -/
def int2letter {α : Type} (n : Int) (chars : List α) : Py (List α) :=
  if chars.length = 0 ∧ 0 < n then .error .zeroDivisionError
  else pick chars (letterLoop chars.length n.toNat).reverse

/-- `chars.index(char)`, raising ValueError: used at `quickly/numbering.py` L106. -/
def index {α : Type} [DecidableEq α] (x : α) : List α → Py Nat
  | [] => .error .valueError
  | y :: ys => if y = x then .ok 0 else
    match index x ys with
    | .ok i => .ok (i + 1)
    | .error e => .error e

/-- The `for char in s` loop, `quickly/numbering.py` L103-107. -/
def letter2intLoop {α : Type} [DecidableEq α] (chars : List α) : List α → Int → Py Int
  | [], result => .ok result
  | c :: cs, result =>
    match index c chars with
    | .error e => .error e
    | .ok i => letter2intLoop chars cs (result * chars.length + (i + 1))

/-- `letter2int(s, chars)`, `quickly/numbering.py` L93-107. -/
def letter2int {α : Type} [DecidableEq α] (s : List α) (chars : List α) : Py Int :=
  letter2intLoop chars s 0

/-- The words `_int2text` can yield, `quickly/numbering.py` L118-132; `to19 i`
is `ENGLISH_TO19[i]`, `tens i` is `ENGLISH_TENS[i]`. -/
inductive Word
  | to19 (i : Nat)
  | tens (i : Nat)
  | hundred
  | thousand
  | million
  deriving DecidableEq, Repr

/-- The part of `_int2text` after the for loop, `quickly/numbering.py` L124-132. -/
def smallWords (n : Nat) : List Word :=
  let (w1, n) := if n ≥ 100 then ([Word.to19 (n / 100), Word.hundred], n % 100) else ([], n)
  let (w2, n) := if n ≥ 20 then ([Word.tens (n / 10 - 2)], n % 10) else ([], n)
  w1 ++ w2 ++ (if n ≠ 0 then [Word.to19 n] else [])

/-- `_int2text(n)`, `quickly/numbering.py` L118-132, for `n ≥ 0`; the for loop
over `(1000000, 'million'), (1000, 'thousand')` is unrolled. -/
def int2words (n : Nat) : List Word :=
  if _h : n ≥ 1000000 then
    int2words (n / 1000000) ++ [Word.million] ++
      (if _h2 : n % 1000000 ≥ 1000 then
        int2words (n % 1000000 / 1000) ++ [Word.thousand] ++ smallWords (n % 1000000 % 1000)
      else smallWords (n % 1000000))
  else if _h2 : n ≥ 1000 then
    int2words (n / 1000) ++ [Word.thousand] ++ smallWords (n % 1000)
  else smallWords n
termination_by n
decreasing_by all_goals omega

/-- `ENGLISH_TO19` of `parce.lang.numbers` (imported at `quickly/numbering.py`
L117; the package is not part of /repo, the content is assumed), already passed
through `str.title()` (L133). -/
def to19Names : List String :=
  ["Zero", "One", "Two", "Three", "Four", "Five", "Six", "Seven", "Eight", "Nine", "Ten",
   "Eleven", "Twelve", "Thirteen", "Fourteen", "Fifteen", "Sixteen", "Seventeen", "Eighteen",
   "Nineteen"]

/-- `ENGLISH_TENS` of `parce.lang.numbers` after `str.title()`, as for `to19Names`. -/
def tensNames : List String :=
  ["Twenty", "Thirty", "Forty", "Fifty", "Sixty", "Seventy", "Eighty", "Ninety"]

/-- The title-cased text of a word; `none` where Python would raise IndexError. -/
def Word.text : Word → Option String
  | .to19 i => to19Names[i]?
  | .tens i => tensNames[i]?
  | .hundred => some "Hundred"
  | .thousand => some "Thousand"
  | .million => some "Million"

/-- `"".join(t.title() for t in words)`, `quickly/numbering.py` L133. -/
def joinWords : List Word → Py (List Char)
  | [] => .ok []
  | w :: ws =>
    match w.text with
    | none => .error .indexError
    | some t => match joinWords ws with
      | .ok r => .ok (t.toList ++ r)
      | .error e => .error e

/-- `int2text(n)`, `quickly/numbering.py` L110-133, for `n ≥ 0`: the join, or
`'Zero'` when it is empty. -/
def int2text (n : Nat) : Py (List Char) :=
  match joinWords (int2words n) with
  | .ok [] => .ok "Zero".toList
  | r => r

end Quickly.Numbering
