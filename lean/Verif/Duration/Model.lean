import Verif.Basic
import Mathlib.Data.Int.Log
import Mathlib.Data.Rat.Floor

/-!
# Model of `quickly/duration.py`

Durations are exact rationals (`Fraction`).  `math.frexp` first converts its
argument to a double; that conversion is modelled as rounding (half to even) to
53 significant bits.  Simplification: the exponent of a double is unbounded in
the model (no overflow above 2^1024, no subnormals below 2^-1022).
-/

namespace Quickly.Duration

/-- Round half to even, as float conversion does with the last bit. -/
def roundEven (x : ℚ) : ℤ :=
  let f := ⌊x⌋
  let r := x - f
  if r < 1/2 then f
  else if 1/2 < r then f + 1
  else if f % 2 = 0 then f else f + 1

/-- The exponent `e` with `2^(e-1) ≤ |q| < 2^e`. -/
def expo (q : ℚ) : ℤ := Int.log 2 |q| + 1

/-- `float(q)` for a Fraction, int or float: nearest rational with 53 significant bits. -/
def toFloat (q : ℚ) : ℚ :=
  if q = 0 then 0 else (roundEven (q * 2 ^ (53 - expo q)) : ℚ) * 2 ^ (expo q - 53)

/-- `math.frexp` of a float: `(m, e)` with `q = m * 2^e` and `1/2 ≤ |m| < 1`, `(0, 0)` for zero. -/
def frexpFloat (q : ℚ) : ℚ × ℤ :=
  if q = 0 then (0, 0) else (q / 2 ^ expo q, expo q)

/-- `math.frexp(value)`. -/
def frexp (q : ℚ) : ℚ × ℤ := frexpFloat (toFloat q)

/-- `log_dotcount(value)`, `quickly/duration.py` L77-119.  `(m > 0.5)` counts as
0 or 1. -/
def logDotcount (value : ℚ) : ℤ × ℤ :=
  let (mantisse, exponent) := frexp value
  let log := 1 - exponent
  let (m, e) := frexp (1 - mantisse)
  let dotcount := -e - (if 1/2 < m then 1 else 0)
  (log, dotcount)

/-- `duration(log, dotcount)`, `quickly/duration.py` L122-131.  A negative shift
count raises ValueError. -/
def duration (log dotcount : ℤ) : Py ℚ :=
  if dotcount < 0 then .error .valueError
  else
    let numer : ℤ := (2 * 2 ^ dotcount.toNat - 1) * 2 ^ 3
    if dotcount + log + 3 < 0 then .error .valueError
    else
      let denom : ℤ := 2 ^ (dotcount + log + 3).toNat
      .ok ((numer : ℚ) / (denom : ℚ))

/-- `shift_duration(value, log, dotcount)`, `quickly/duration.py` L134-172. -/
def shiftDuration (value : ℚ) (log dotcount : ℤ) : Py ℚ :=
  let (oldLog, oldDotcount) := logDotcount value
  duration (oldLog + log) (max 0 (oldDotcount + dotcount))

/-- `NAMED_DURATIONS`, `quickly/duration.py` L36. -/
def namedDurations : List (List Char) := ["breve".toList, "longa".toList, "maxima".toList]

/-- `to_string(value)`, `quickly/duration.py` L175-199.  `1 << log` is written in
decimal; `'.' * dotcount` is empty for a negative count; a tuple index that is
too large raises IndexError (the index `-1-log` is never negative here). -/
def toString (value : ℚ) : Py (List Char) :=
  let (log, dotcount) := logDotcount value
  let dots := List.replicate dotcount.toNat '.'
  if log < 0 then
    match namedDurations[(-1 - log).toNat]? with
    | none => .error .indexError
    | some name => .ok ('\\' :: name ++ dots)
  else .ok (Nat.toDigits 10 (2 ^ log.toNat) ++ dots)

/-- `text.strip(' \t.')`. -/
def strip (s : List Char) : List Char :=
  let bad := fun c => c == ' ' || c == '\t' || c == '.'
  ((s.dropWhile bad).reverse.dropWhile bad).reverse

/-- `int(text)`, `none` for ValueError.  Simplification: ASCII digits with an
optional sign only (Python also accepts surrounding white space, which has been
stripped here, underscores between digits, and other decimal digits). -/
def parseInt (s : List Char) : Option ℤ :=
  let digits := fun (l : List Char) => l ≠ [] ∧ ∀ c ∈ l, c.isDigit = true
  match s with
  | '-' :: l => if digits l then some (-(Nat.ofDigitChars 10 l 0 : ℤ)) else none
  | '+' :: l => if digits l then some (Nat.ofDigitChars 10 l 0 : ℤ) else none
  | l => if digits l then some (Nat.ofDigitChars 10 l 0 : ℤ) else none

/-- `n.bit_length()` of a Python int. -/
def bitLength (n : ℤ) : ℤ := if n = 0 then 0 else (Nat.log 2 n.natAbs : ℤ) + 1

/-- `tuple.index`, `none` for ValueError. -/
def tupleIndex (x : List Char) (l : List (List Char)) : Option ℕ := l.findIdx? (· == x)

/-- `from_string(text, dotcount)`, `quickly/duration.py` L202-229. -/
def fromString (text : List Char) (dotcount : Option ℤ) : Py ℚ :=
  let dots := match dotcount with
    | none => (text.count '.' : ℤ)
    | some d => d
  let text := strip text
  match parseInt text with
  | some n => duration (bitLength n - 1) dots
  | none =>
    match tupleIndex (text.dropWhile (· == '\\')) namedDurations with
    | some i => duration (-1 - i) dots
    | none => .error .valueError

/-- `is_writable(value)`, `quickly/duration.py` L232-241. -/
def isWritable (value : ℚ) : Bool :=
  let (mantisse, exponent) := frexp value
  decide (-10 < exponent ∧ exponent < 5 ∧ (frexp (1 - mantisse)).1 = 1/2)

/-- `Transform`, `quickly/duration.py` L39-49; the scale is a Fraction. -/
structure Transform where
  log : ℤ := 0
  dotcount : ℤ := 0
  scale : ℚ := 1
  deriving DecidableEq

/-- `Transform.__bool__`, L51-52. -/
def Transform.bool (t : Transform) : Bool := decide (t.log ≠ 0 ∨ t.dotcount ≠ 0 ∨ t.scale ≠ 1)

/-- `Transform.__add__`, L58-62. -/
def Transform.add (a b : Transform) : Transform :=
  ⟨a.log + b.log, a.dotcount + b.dotcount, a.scale * b.scale⟩

/-- `Transform.transform`, L69-73. -/
def Transform.transform (t : Transform) (dur scaling : ℚ) : Py (ℚ × ℚ) :=
  if t.log ≠ 0 ∨ t.dotcount ≠ 0 then
    match shiftDuration dur t.log t.dotcount with
    | .ok d => .ok (d, scaling * t.scale)
    | .error e => .error e
  else .ok (dur, scaling * t.scale)

/-- `Transform.length`, L64-67. -/
def Transform.length (t : Transform) (dur scaling : ℚ) : Py ℚ :=
  match t.transform dur scaling with
  | .ok (d, s) => .ok (d * s)
  | .error e => .error e

end Quickly.Duration
