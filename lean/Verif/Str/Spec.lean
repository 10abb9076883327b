import Verif.Str.Model

/-!
# What a string literal is

`Literal ts` describes the token lists that stand for a closed string literal, in whatever
way the lexer cuts the plain text: an opening quote, escapes (a backslash before a backslash
or quote) and pieces of plain text without quote or escape, and a closing quote.
-/

namespace Quickly.Str.Spec

/-- A token inside a string. -/
def Inner (t : Token) : Prop :=
  if t.escape then t.text = ['\\', '\\'] ∨ t.text = ['\\', '"']
  else '"' ∉ t.text ∧ '\\' ∉ t.text

/-- The tokens of a string literal without a lone backslash. -/
def Literal (ts : List Token) : Prop :=
  ∃ body, ts = ⟨false, ['"']⟩ :: body ++ [⟨false, ['"']⟩] ∧ ∀ t ∈ body, Inner t

/-- The text of tokens. -/
def source (ts : List Token) : Text := ts.flatMap (·.text)

/-- A quote in the text is escaped when an odd number of backslashes precedes it.
`OpenQuote s` says that `s` has a quote that is not escaped. -/
def OpenQuote (s : Text) : Prop :=
  ∃ before after, s = before ++ '"' :: after ∧
    (before.reverse.takeWhile (· = '\\')).length % 2 = 0

end Quickly.Str.Spec
