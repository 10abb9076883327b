import Verif.Scheme.Spec
import Verif.Pitch.Model

/-!
# Model of the head values of text elements

`check_head`, `write_head` and `read_head` of the text elements of `quickly/dom/lily.py`, `scm.py`, `tex.py` and `base.py`,
for those that are not in another model (strings are in `Str`, durations in `Duration`, Scheme numbers in `Scheme`, mapped
heads in `Mapping`).  A token is its text.
-/

namespace Quickly.Heads

open Quickly.Scheme (Str)

/-- The kinds of text elements, by where the three functions are defined.  Simplified: `lily.Float` is left out (`float` and
`str` of Python). -/
inductive Kind where
  /-- No functions of its own (`Symbol`, `MarkupWord`, `scm.Identifier`, `tex.Text`, …), `quickly/dom/element.py` L495-520, L900-904. -/
  | plain
  /-- `lily.Int`, `quickly/dom/lily.py` L603-612. -/
  | int
  /-- `lily.Fraction`, L618-641. -/
  | fraction
  /-- `lily.Octave`, L1643-1657. -/
  | octave
  /-- `lily.OctCheck`, L1660-1674. -/
  | octCheck
  /-- `lily.MultilineComment`, L2390-2398. -/
  | lilyMulti
  /-- `lily.SinglelineComment`, L2401-2410. -/
  | lilySingle
  /-- `base.BackslashCommand` (`MusicFunction`, `IdentifierRef`, `Markup`, `MarkupCommand`, `tex.Command`),
  `quickly/dom/base.py` L85-103. -/
  | backslash
  /-- `scm.SinglelineComment`, `quickly/dom/scm.py` L76-85. -/
  | scmSingle
  /-- `scm.MultilineComment`, L88-96. -/
  | scmMulti
  /-- `scm.Char`, L99-106. -/
  | char
  /-- `scm.Bool`, L205-213. -/
  | bool
  /-- `tex.EnvironmentName`, `quickly/dom/tex.py` L122-135. -/
  | envName
  /-- `tex.Comment`, L138-147. -/
  | texComment
  deriving DecidableEq

/-- A head value. -/
inductive Head where
  | text (s : Str)
  | int (n : ℤ)
  | pair (a b : ℤ)
  | bool (b : Bool)
  | none
  deriving DecidableEq

/-- `check_head(head)`: TypeError is raised by the constructor if it is false. -/
def check : Kind → Head → Bool
  | .int, .int _ => true
  | .int, _ => false
  | .fraction, .pair _ _ => true
  | .fraction, _ => false
  | .backslash, .text s => s.head? != some '\\'
  | .backslash, _ => false
  | _, _ => true

/-- `write_head()`.  A head that is no text where text is expected is a TypeError here (in the comments and characters
`format` would write its `str`). -/
def write : Kind → Head → Py Str
  | .plain, .text s => .ok s
  | .int, .int n => .ok (Scheme.fmt .dec n)
  | .fraction, .pair a b => .ok (Scheme.fmt .dec a ++ ['/'] ++ Scheme.fmt .dec b)
  | .octave, .int n => .ok (Pitch.octaveToString n)
  | .octCheck, .int n => .ok ('=' :: Pitch.octaveToString n)
  | .lilyMulti, .text s => .ok (['%', '{'] ++ s ++ ['%', '}'])
  | .lilySingle, .text s => .ok ('%' :: s)
  | .backslash, .text s => .ok ('\\' :: s)
  | .scmSingle, .text s => .ok (';' :: s)
  | .scmMulti, .text s => .ok (['#', '!'] ++ s ++ ['#', '!'])
  | .char, .text s => .ok (['#', '\\'] ++ s)
  | .bool, .bool b => .ok (if b then ['#', 't'] else ['#', 'f'])
  | .envName, .text s => .ok (['{'] ++ s ++ ['}'])
  | .texComment, .text s => .ok ('%' :: s)
  | _, _ => .error .typeError

/-- `int(text)`: a sign and decimal digits (Python also allows underscores and white space). -/
def pyInt : Str → Py ℤ
  | '-' :: s => match Scheme.Spec.natural 10 s with
    | some n => .ok (-(n : ℤ))
    | none => .error .valueError
  | s => match Scheme.Spec.natural 10 s with
    | some n => .ok n
    | none => .error .valueError

/-- `text.split('/')`. -/
def split : Str → List Str
  | [] => [[]]
  | c :: s => if c = '/' then [] :: split s else match split s with
    | w :: ws => (c :: w) :: ws
    | [] => [[c]]

/-- `origin[0].text`. -/
def first : List Str → Py Str
  | t :: _ => .ok t
  | [] => .error .indexError

/-- `''.join(t.text for t in origin[1:end])` with `end = -1 if origin[-1] == close else None`, L2393-2395,
`quickly/dom/scm.py` L90-93. -/
def inside (close : Str) (origin : List Str) : Py Head :=
  match origin.getLast? with
  | none => .error .indexError
  | some t => .ok (.text (if t = close then (origin.drop 1).dropLast else origin.drop 1).flatten)

/-- `t.text not in "{}"`: a substring. -/
def notBrace (t : Str) : Bool := !(t = [] || t = ['{'] || t = ['}'] || t = ['{', '}'])

/-- `read_head(origin)`. -/
def read : Kind → List Str → Py Head
  | .plain, o => .ok (.text o.flatten)
  | .int, o => do return .int (← pyInt (← first o))
  | .fraction, o => do
    match ← (split (← first o)).mapM pyInt with
    | [a, b] => return .pair a b
    | _ => .error .typeError
  | .octave, o => do return .int (Pitch.octaveFromString (← first o))
  | .octCheck, o => do return .int (Pitch.octaveFromString ((← first o).drop 1))
  | .lilyMulti, o => inside ['%', '}'] o
  | .lilySingle, o => .ok (.text (o.drop 1).flatten)
  | .backslash, o => .ok (.text (o.flatten.drop 1))
  | .scmSingle, o => .ok (.text (o.drop 1).flatten)
  | .scmMulti, o => inside ['#', '!'] o
  | .char, o => do return .text ((← first o).drop 2)
  | .bool, o => do
    match (← first o)[1]? with
    | some c => return .bool (c = 't' || c = 'T')
    | none => .error .indexError
  | .envName, o => .ok (match o.find? notBrace with | some t => .text t | none => .none)
  | .texComment, o => .ok (.text (o.drop 1).flatten)

end Quickly.Heads
