import Verif.Text.Spec
import Verif.Edits.Spec

/-!
# The whitespace that elements ask for around their texts
-/

namespace Quickly.Wishes

open Quickly.Node Quickly.Text Quickly.Text.Spec

/-- A text of an element: its head, or its tail; with the place of the element and its number of children. -/
structure Piece where
  place : Path
  tail : Bool
  elem : Elem
  len : ℕ

/-- The text itself. -/
def Piece.text (a : Piece) : Str := if a.tail then a.elem.tail else a.elem.head

/-- The whitespace that should be before it: `space_before`, `space_before_tail`. -/
def Piece.before (a : Piece) : Str := if a.tail then a.elem.sp.beforeTail else a.elem.sp.before

/-- The whitespace that should be after it: `space_after_head` if more of the element follows, else `space_after`. -/
def Piece.after (a : Piece) : Str :=
  if a.tail then a.elem.sp.after
  else if a.len = 0 ∧ ¬ (a.elem.kind = .block ∧ a.elem.tail ≠ []) then a.elem.sp.after
  else a.elem.sp.afterHead

/-- All texts of a tree in document order, also the empty ones. -/
def pieces (p : Path) : Node.Tree Elem → List Piece
  | .node e cs =>
    (if e.kind = .plain then [] else [⟨p, false, e, cs.length⟩]) ++ go p 0 cs ++
    (if e.kind = .block then [⟨p, true, e, cs.length⟩] else [])
where
  /-- Those of the children. -/
  go (p : Path) (i : ℕ) : List (Node.Tree Elem) → List Piece
    | [] => []
    | c :: cs => pieces (p ++ [i]) c ++ go p (i + 1) cs

/-- The texts of a tree that are not empty. -/
def shown (t : Node.Tree Elem) : List Piece := (pieces [] t).filter fun a => a.text ≠ []

/-- There is a gap between each two texts, and it is at least as important as the whitespace that the first
should have after it, and as that which the second should have before it. -/
inductive Meets : List Piece → List Str → Prop
  | none : Meets [] []
  | one {a} : Meets [a] []
  | more {a b g ps gs} : AtMost a.after g → AtMost b.before g → Meets (b :: ps) gs → Meets (a :: b :: ps) (g :: gs)

/-- The gap before an existing point is the whitespace that was before it: from the end of another existing point,
or from the start, until the point. -/
def Untouched (doc : Str) (start : ℕ) (pts : List Point) (b : Point) (g : Str) : Prop :=
  ∃ q p e, b.range = some (p, e) ∧ q < p ∧ g = Edits.Spec.slice doc q p ∧
    (q = start ∨ ∃ c ∈ pts, ∃ r, c.range = some (r, q))

/-- The gaps before points, in a document that is edited: each gap but the first is at least as important as the
whitespace asked for, or it is the whitespace that was there. -/
inductive EMeets (doc : Str) (start : ℕ) (pts : List Point) : List Point → List Str → Prop
  | none : EMeets doc start pts [] []
  | one {a g} : EMeets doc start pts [a] [g]
  | more {a b g h ps gs} : (AtMost a.after h ∧ AtMost b.before h) ∨ Untouched doc start pts b h →
      EMeets doc start pts (b :: ps) (h :: gs) → EMeets doc start pts (a :: b :: ps) (g :: h :: gs)

end Quickly.Wishes
