import Verif.Basic
import Mathlib.Data.Nat.Notation

/-!
# Model of string elements, `quickly/dom/base.py` L50-59

Strings are lists of characters.  The tokens come from parce, which is not part of the
repository; its string lexicon (LilyPond and Scheme) is modelled by `lexString`: after the
opening quote, `\\` and `\"` are `String.Escape` tokens, a quote ends the string, the text
in between is in `String` tokens.
-/

namespace Quickly.Str

/-- Python `str`. -/
abbrev Text := List Char

/-- A parce token; only whether its action is `String.Escape` matters. -/
structure Token where
  escape : Bool
  text : Text
  deriving DecidableEq, Repr

/-- `re.sub(r'([\\"])', r'\\\1', s)`, L59. -/
def escapeText (s : Text) : Text :=
  s.flatMap fun c => if c = '\\' ∨ c = '"' then ['\\', c] else [c]

/-- `String.write_head`, L58-59. -/
def writeHead (head : Text) : Text := ['"'] ++ escapeText head ++ ['"']

/-- `''.join(t.text[1:] if t.action is a.String.Escape else t.text for t in ts)`, L55-56. -/
def unescape (ts : List Token) : Text :=
  ts.flatMap fun t => if t.escape then t.text.drop 1 else t.text

/-- `String.read_head`, L53-56: the first and last token (the quotes) are left out,
`origin[1:-1]`. -/
def readHead (origin : List Token) : Text := unescape (origin.drop 1).dropLast

/-- The lexer inside a string (parce): the tokens up to and including the closing quote and
the text after it; `none` when the string is not closed.  `acc` is the plain text since the
last token, reversed. -/
def lexBody (acc : Text) : Text → Option (List Token × Text)
  | [] => none
  | '"' :: rest =>
    some ((if acc.isEmpty then [] else [⟨false, acc.reverse⟩]) ++ [⟨false, ['"']⟩], rest)
  | '\\' :: '\\' :: rest =>
    match lexBody [] rest with
    | none => none
    | some (ts, r) =>
      some ((if acc.isEmpty then [] else [⟨false, acc.reverse⟩]) ++ ⟨true, ['\\', '\\']⟩ :: ts, r)
  | '\\' :: '"' :: rest =>
    match lexBody [] rest with
    | none => none
    | some (ts, r) =>
      some ((if acc.isEmpty then [] else [⟨false, acc.reverse⟩]) ++ ⟨true, ['\\', '"']⟩ :: ts, r)
  | c :: rest => lexBody (c :: acc) rest

/-- The tokens of a string literal at the start of a text, and the text that follows. -/
def lexString : Text → Option (List Token × Text)
  | '"' :: rest =>
    match lexBody [] rest with
    | none => none
    | some (ts, r) => some (⟨false, ['"']⟩ :: ts, r)
  | _ => none

end Quickly.Str
