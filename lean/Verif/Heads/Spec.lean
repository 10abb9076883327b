import Verif.Heads.Model
import Mathlib.Data.List.Infix

/-!
# How the elements look in a source text

The syntax of LilyPond, Guile and LaTeX: which tokens make one element.
-/

namespace Quickly.Heads.Spec

open Quickly.Scheme (Str)

/-- Decimal digits, at least one. -/
def Digits (s : Str) : Prop := s ≠ [] ∧ ∀ c ∈ s, c ∈ "0123456789".toList

/-- The tokens `ts` are one complete element of the kind in a source text: nothing of it is read as something else.

* a word is any text that is not empty; a command is a backslash and a word;
* an integer is one token, as are a fraction, octave marks and an octave check;
* `%{` begins a comment that ends at the first `%}`, `#!` one that ends at the first `!#`;
* `%` (not before `{`) and `;` begin a comment that goes on to the end of the line; also `%` in LaTeX;
* a Scheme character is `#\` with a name, a boolean is one of four words;
* the name of an environment is between braces. -/
def Lexed : Kind → List Str → Prop
  | .plain, ts => ts.flatten ≠ []
  | .int, ts => ∃ s, Digits s ∧ (ts = [s] ∨ ts = ['-' :: s])
  | .fraction, ts => ∃ a b, Digits a ∧ Digits b ∧ ts = [a ++ ['/'] ++ b]
  | .octave, ts => ∃ s : Str, s ≠ [] ∧ (∀ c ∈ s, c = '\'' ∨ c = ',') ∧ ts = [s]
  | .octCheck, ts => ∃ s : Str, (∀ c ∈ s, c = '\'' ∨ c = ',') ∧ ts = ['=' :: s]
  | .lilyMulti, ts => ∃ body : List Str, ¬ ['%', '}'] <:+: body.flatten ∧ ts = [['%', '{']] ++ body ++ [['%', '}']]
  | .lilySingle, ts => ∃ body : List Str, '\n' ∉ body.flatten ∧ body.flatten.head? ≠ some '{' ∧ ts = ['%'] :: body
  | .backslash, ts => ∃ s : Str, s ≠ [] ∧ s.head? ≠ some '\\' ∧ ts.flatten = '\\' :: s
  | .scmSingle, ts => ∃ body : List Str, '\n' ∉ body.flatten ∧ ts = [';'] :: body
  | .scmMulti, ts => ∃ body : List Str, ¬ ['!', '#'] <:+: body.flatten ∧ ts = [['#', '!']] ++ body ++ [['!', '#']]
  | .char, ts => ∃ s : Str, s ≠ [] ∧ ts = [['#', '\\'] ++ s]
  | .bool, ts => ∃ s ∈ ["#t".toList, "#f".toList, "#true".toList, "#false".toList], ts = [s]
  | .envName, ts => ∃ s : Str, s ≠ [] ∧ '{' ∉ s ∧ '}' ∉ s ∧ ts = [['{'], s, ['}']]
  | .texComment, ts => ∃ body : List Str, '\n' ∉ body.flatten ∧ ts = ['%'] :: body

/-- The values that can be written as one element of the kind. -/
def Valid : Kind → Head → Prop
  | .plain, .text s => s ≠ []
  | .int, .int _ => True
  | .fraction, .pair a b => 0 ≤ a ∧ 0 ≤ b
  | .octave, .int n => n ≠ 0
  | .octCheck, .int _ => True
  | .lilyMulti, .text s => ¬ ['%', '}'] <:+: s
  | .lilySingle, .text s => '\n' ∉ s ∧ s.head? ≠ some '{'
  | .backslash, .text s => s ≠ [] ∧ s.head? ≠ some '\\'
  | .scmSingle, .text s => '\n' ∉ s
  | .char, .text s => s ≠ []
  | .bool, .bool _ => True
  | .envName, .text s => s ≠ [] ∧ '{' ∉ s ∧ '}' ∉ s
  | .texComment, .text s => '\n' ∉ s
  | _, _ => False

/-- The kinds whose text is the value: nothing can be written in two ways. -/
def exact : Kind → Bool
  | .plain | .lilyMulti | .lilySingle | .backslash | .scmSingle | .char | .envName | .texComment => true
  | _ => false

end Quickly.Heads.Spec
