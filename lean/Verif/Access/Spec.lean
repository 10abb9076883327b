import Verif.Access.Model
import Verif.Node.Spec

/-!
# What the attributes promise
-/

namespace Quickly.Access.Spec

open Quickly.Node Quickly.Node.Spec

/-- What is known of decimal digits: the ten of ASCII have their value, the dot is none. -/
structure IsDigits (dig : Char → Option ℕ) : Prop where
  ascii : ∀ i < 10, dig ("0123456789".toList.getD i '0') = some i
  dot : dig '.' = none

/-- The text is a numeral with the value: one or more decimal digits, the most significant first. -/
inductive Numeral (dig : Char → Option ℕ) : Str → ℕ → Prop
  | one (c : Char) (d : ℕ) : dig c = some d → Numeral dig [c] d
  | more (s : Str) (c : Char) (n d : ℕ) : Numeral dig s n → dig c = some d → Numeral dig (s ++ [c]) (10 * n + d)

/-- There is no digit in the text. -/
def NoDigit (dig : Char → Option ℕ) (s : Str) : Prop := ∀ c ∈ s, dig c = none

/-- The text has the numerals with these values, and between two of them there is other text. -/
inductive Numbers (dig : Char → Option ℕ) : Str → List ℕ → Prop
  | none (s : Str) : NoDigit dig s → Numbers dig s []
  | last (a s b : Str) (n : ℕ) : NoDigit dig a → Numeral dig s n → NoDigit dig b → Numbers dig (a ++ s ++ b) [n]
  | more (a s b rest : Str) (n m : ℕ) (ns : List ℕ) : NoDigit dig a → Numeral dig s n → NoDigit dig b → b ≠ [] →
      Numbers dig rest (m :: ns) → Numbers dig (a ++ s ++ b ++ rest) (n :: m :: ns)

/-- The node is a String. -/
def IsString (n : Node.Tree Nd) : Prop := ∃ s, n.val = .string s

/-- The first String among the nodes has this text. -/
def Shows (cs : List (Node.Tree Nd)) (s : Str) : Prop :=
  ∃ a u b, cs = a ++ .node (.string s) u :: b ∧ ∀ n ∈ a, ¬ IsString n

/-- There is no String. -/
def ShowsNothing (cs : List (Node.Tree Nd)) : Prop := ∀ n ∈ cs, ¬ IsString n

/-- Only the text of the first String is changed to `s`; a String is added in front if there is none. -/
def Changed (s : Str) (cs cs' : List (Node.Tree Nd)) : Prop :=
  (∃ a old u b, cs = a ++ .node (.string old) u :: b ∧ (∀ n ∈ a, ¬ IsString n) ∧ cs' = a ++ .node (.string s) u :: b) ∨
  (ShowsNothing cs ∧ cs' = .node (.string s) [] :: cs)

/-- The node at `p`, below the root, is a `\version` command. -/
def VersionAt (t : Node.Tree Nd) (p : Path) : Prop := p ≠ [] ∧ ∃ n, t.get? p = some n ∧ n.val = .version

/-- The `\version` command that comes first in the document. -/
def FirstVersion (t : Node.Tree Nd) (p : Path) : Prop :=
  VersionAt t p ∧ ∀ q, VersionAt t q → q = p ∨ DocBefore p q

/-- LilyPond knows absolute first pitches in `\relative` from version 2.18. -/
def Since218 : List ℕ → Prop
  | a :: b :: _ => 2 < a ∨ (a = 2 ∧ 18 ≤ b)
  | [a] => 2 < a
  | [] => False

open Quickly.Assign in
/-- A name: a string, or a tuple with two or more parts, of which the first is a string. -/
def IsName : Name → Prop
  | .str _ => True
  | .int _ => False
  | .tuple (.str _ :: _ :: _) => True
  | .tuple _ => False

end Quickly.Access.Spec
