import Verif.Edits.Model

/-!
# What writing back modifications should do
-/

namespace Quickly.Edits.Spec

open Quickly.Node Quickly.Text

/-- Part of a text. -/
def slice (doc : Str) (a b : ℕ) : Str := (doc.take b).drop a

/-- The tokens are not empty, come after each other, and all text that is in no token is
whitespace. -/
structure Parsed (isSpace : Char → Bool) (doc : Str) (tokens : List Tok) : Prop where
  nonempty : ∀ t ∈ tokens, t.1 < t.2
  sorted : tokens.Pairwise fun a b => a.2 ≤ b.1
  space : ∀ (i : ℕ) c, doc[i]? = some c → (∀ t ∈ tokens, i < t.1 ∨ t.2 ≤ i) → isSpace c = true

/-- The existing points have positions that start and end at tokens from `start`
on, within the text, and they are still in the order of the text: an existing point comes after those before it. -/
structure Kept (doc : Str) (tokens : List Tok) (start : ℕ) (pts : List Point) : Prop where
  origin : ∀ pt ∈ pts, ∀ p e, pt.range = some (p, e) →
    start ≤ p ∧ p < e ∧ e ≤ doc.length ∧ (∃ t ∈ tokens, t.1 = p) ∧ (∃ t ∈ tokens, t.2 = e)
  inOrder : pts.Pairwise fun a b => ∀ p e q f, a.range = some (p, e) → b.range = some (q, f) → e ≤ q

/-- The text that should be there for a point: that of the document if it has not been modified. -/
def shown (doc : Str) (pt : Point) : Str :=
  match pt.range with
  | some (p, e) => if pt.modified then pt.text else slice doc p e
  | none => pt.text

/-- Points that have text: new points without text are of no importance. -/
def visible (pts : List Point) : List Point := pts.filter fun pt => pt.range.isSome || pt.text != []

/-- Texts, each preceded by a gap. -/
def interleave : List Str → List Str → Str
  | g :: gs, x :: xs => g ++ x ++ interleave gs xs
  | _, _ => []

/-- All wishes are whitespace. -/
def spacesOnly (isSpace : Char → Bool) (pts : List Point) : Prop :=
  ∀ pt ∈ pts, (∀ c ∈ pt.before, isSpace c = true) ∧ ∀ c ∈ pt.after, isSpace c = true

end Quickly.Edits.Spec
