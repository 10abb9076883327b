import Verif.EditSel.Model
import Verif.Edits.Spec

/-! # What editing a selection may change -/

namespace Quickly.EditSel.Spec

open Quickly.Node Quickly.Text Quickly.Edits Quickly.Edits.Spec

/-- The second text is the first one with whitespace inserted. -/
inductive Spaced (isSpace : Char → Bool) : Str → Str → Prop
  | nil : Spaced isSpace [] []
  | keep (c : Char) {u v : Str} : Spaced isSpace u v → Spaced isSpace (c :: u) (c :: v)
  | space (c : Char) {u v : Str} : isSpace c = true → Spaced isSpace u v → Spaced isSpace u (c :: v)

/-- All text is whitespace. -/
def Blank (isSpace : Char → Bool) (s : Str) : Prop := ∀ c ∈ s, isSpace c = true

/-- The points of a tree that was read from a text: all have a place in the text and are not modified, they are in order, and every token
is in a point. -/
structure Intact (doc : Str) (tokens : List Tok) (pts : List Point) : Prop where
  there : ∀ pt ∈ pts, pt.range.isSome = true ∧ pt.modified = false
  kept : Kept doc tokens 0 pts
  all : ∀ k ∈ tokens, ∃ pt ∈ pts, ∃ p e, pt.range = some (p, e) ∧ p ≤ k.1 ∧ k.2 ≤ e

/-- The point ends at or before `s`. -/
def endsBy (s : ℕ) (pt : Point) : Bool := match pt.range with
  | some (_, e) => e ≤ s
  | none => false

/-- The point starts at or after `e`. -/
def startsFrom (e : ℕ) (pt : Point) : Bool := match pt.range with
  | some (p, _) => e ≤ p
  | none => false

/-- Where the point is in the text, and whether it has been modified. -/
def place (pt : Point) : Option (ℕ × ℕ) × Bool := (pt.range, pt.modified)

/-- Only what is between `s` and `e` has been changed: the points before and after it are the old ones; between them are
the points `mid`, and those of them that were there already are still in the order of the text. -/
def OnlyBetween (doc : Str) (tokens : List Tok) (s e : ℕ) (old new mid : List Point) : Prop :=
  ∃ as bs, new = as ++ mid ++ bs ∧ as.map place = (old.filter (endsBy s)).map place ∧
    bs.map place = (old.filter (startsFrom e)).map place ∧ Kept doc tokens s mid ∧
    ∀ pt ∈ mid, ∀ p q, pt.range = some (p, q) → q ≤ e

end Quickly.EditSel.Spec
