import Verif.Text.Model
import Verif.Str.Model
import Mathlib.Data.Nat.Digits.Defs
import Mathlib.Data.Rat.Defs
import Mathlib.Data.Rat.Floor

/-!
# Scheme elements, `quickly/dom/scm.py`
-/

namespace Quickly.Scheme

open Quickly.Node

/-- A text. -/
abbrev Str := List Char

/-! ## Numbers, L144-210 -/

/-- The classes `Bin`, `Oct`, `Number` and `Hex` by their `radix`. -/
inductive Radix where
  | bin | oct | dec | hex
deriving DecidableEq

/-- The number. -/
def Radix.base : Radix → ℕ
  | .bin => 2 | .oct => 8 | .dec => 10 | .hex => 16

/-- `_prefix`, L154. -/
def Radix.pfx : Radix → Str
  | .bin => ['#', 'b'] | .oct => ['#', 'o'] | .dec => [] | .hex => ['#', 'x']

/-- A digit as Python's `format` writes it. -/
def digitChar : ℕ → Char
  | 0 => '0' | 1 => '1' | 2 => '2' | 3 => '3' | 4 => '4' | 5 => '5' | 6 => '6' | 7 => '7' | 8 => '8' | 9 => '9'
  | 10 => 'a' | 11 => 'b' | 12 => 'c' | 13 => 'd' | 14 => 'e' | _ => 'f'

/-- `format(n, 'b' | 'o' | 'd' | 'x')` for a number that is not negative. -/
def fmtNat (r : Radix) (n : ℕ) : Str :=
  if n = 0 then ['0'] else (Nat.digits r.base n).reverse.map digitChar

/-- `format(n, ...)`, with the `_fmt` of L155. -/
def fmt (r : Radix) (n : ℤ) : Str := if n < 0 then '-' :: fmtNat r n.natAbs else fmtNat r n.natAbs

/-- The value of the head of a number: an `int`, a `Fraction`, a `float` that is infinite, the object `math.nan`, another nan, or
finite, with the text `str(v)` and the exact value; a `complex` with the text `'{}{:+}i'.format(...)` (its parts are
finite here). -/
inductive Num where
  | int (n : ℤ)
  | frac (q : ℚ)
  | inf
  | negInf
  | nan
  | otherNan
  | float (text : Str) (val : ℚ)
  | complex (text : Str)

/-- `int(v)` for a finite float: towards zero. -/
def trunc (q : ℚ) : ℤ := if q < 0 then -⌊-q⌋ else ⌊q⌋

/-- `Number.write_head`, L161-183. -/
def writeNum (r : Radix) (v : Num) : Py Str :=
  match v with
  | .inf => .ok (r.pfx ++ "+inf.0".toList)
  | .negInf => .ok (r.pfx ++ "-inf.0".toList)
  | .nan => .ok (r.pfx ++ "+nan.0".toList)
  | .frac q =>
    let s := fmt r q.num
    let s := if q.den ≠ 1 then s ++ ['/'] ++ fmt r q.den else s
    .ok (r.pfx ++ s)
  | .otherNan => if r = .dec then .ok (r.pfx ++ "nan".toList) else .error .valueError
  | .float text val => if r = .dec then .ok (r.pfx ++ text) else .ok (r.pfx ++ fmt r (trunc val))
  | .complex text => .ok (r.pfx ++ text)
  | .int n => .ok (r.pfx ++ fmt r n)

/-! ## Elements -/

/-- The elements that `create_element_from_value` and its helpers make. -/
inductive El where
  | bool (b : Bool)
  | num (n : Num)
  | str (s : Str)
  | ident (s : Str)
  | quote (q : Str)
  | dot
  | list

/-- The text of the head: `Bool.write_head` L206-207, `Number.write_head`, `String.write_head` (`base.py` L58),
`TextElement`, `Dot` L218, `List` L113-114. -/
def El.head : El → Py Str
  | .bool b => .ok (if b then "#t".toList else "#f".toList)
  | .num n => writeNum .dec n
  | .str s => .ok (Str.writeHead s)
  | .ident s => .ok s
  | .quote q => .ok q
  | .dot => .ok ['.']
  | .list => .ok ['(']

/-- The element for `write()`: `List` is a `BlockElement` with `space_between = " "` (L110-114), the others have no spacing
attributes. A head that cannot be written does not occur for the values below. -/
def El.elem (e : El) : Text.Elem :=
  match e with
  | .list => { kind := .block, head := ['('], tail := [')'], sp := { between := [' '] } }
  | e => { kind := .head, head := (e.head.toOption).getD [] }

/-- A tree of these for `write()`. -/
def toText : Node.Tree El → Node.Tree Text.Elem
  | .node e cs => .node e.elem (go cs)
where
  /-- The children. -/
  go : List (Node.Tree El) → List (Node.Tree Text.Elem)
    | [] => []
    | c :: cs => toText c :: go cs

/-- `write()`. -/
def write (t : Node.Tree El) : Str := Text.write Text.defaultConcat (toText t)

/-! ## Python values, L221-284 -/

/-- The quotes made by `q`, `qq` and `uq`, L238-250. -/
inductive Q where
  | quote | quasi | unquote
deriving DecidableEq

/-- The text of the quote. -/
def Q.text : Q → Str
  | .quote => ['\''] | .quasi => ['`'] | .unquote => [',']

/-- The Python values that can be converted; `sym` and `quoted` are the results of `i()`, and `q()`, `qq()` and `uq()`. (Floats are
not in it.) -/
inductive Val where
  | bool (b : Bool)
  | int (n : ℤ)
  | frac (q : ℚ)
  | str (s : Str)
  | sym (s : Str)
  | quoted (q : Q) (v : Val)
  | list (vs : List Val)
  | tuple (vs : List Val)

/-- `create_element_from_value(value)`, L221-235, with `_element_mapping`, L275-284. For a tuple: all but the last, a `Dot`, and
the last (`value[-1:]`, nothing for an empty tuple). -/
def create : Val → Node.Tree El
  | .bool b => .node (.bool b) []
  | .int n => .node (.num (.int n)) []
  | .frac q => .node (.num (.frac q)) []
  | .str s => .node (.str s) []
  | .sym s => .node (.ident s) []
  | .quoted q v => .node (.quote q.text) [create v]
  | .list vs => .node .list (all vs)
  | .tuple vs => .node .list (dotted vs)
where
  /-- `map(s, value)`. -/
  all : List Val → List (Node.Tree El)
    | [] => []
    | v :: vs => create v :: all vs
  /-- `*map(s, value[:-1]), Dot(), *map(s, value[-1:])`. -/
  dotted : List Val → List (Node.Tree El)
    | [] => [.node .dot []]
    | [v] => [.node .dot [], create v]
    | v :: w :: vs => create v :: dotted (w :: vs)

end Quickly.Scheme
