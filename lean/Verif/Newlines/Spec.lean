import Verif.Wishes.Spec

/-!
# What retaining the line breaks of a text means
-/

namespace Quickly.Newlines.Spec

open Quickly.Node Quickly.Text Quickly.Text.Spec Quickly.Wishes

/-- There is a separator at position `i` of the text. -/
def sepAt (text sep : Str) (i : ℕ) : Bool := i < text.length && sep.isPrefixOf (text.drop i)

/-- The number of separators that begin between two positions. -/
def blocks (text sep : Str) (p q : ℕ) : ℕ := ((List.range q).filter fun i => p ≤ i && sepAt text sep i).length

/-- The position of the token of a head or tail text. -/
def pos (a : Piece) : Option ℕ := ((if a.tail then a.elem.tailOrigin else a.elem.headOrigin).map Prod.fst)

/-- The newlines that should be before each of the texts: the number of separators between the position of the previous text that has
an origin and its own, but not more than the maximum; `k` is that position, or the furthest one if texts are not in the order
of the source. -/
def due (text sep : Str) (maxBlank : ℤ) (k : ℕ) : List Piece → List ℕ
  | [] => []
  | a :: as => match pos a with
    | none => 0 :: due text sep maxBlank k as
    | some p => (min (blocks text sep k p : ℤ) maxBlank).toNat :: due text sep maxBlank (max k p) as

/-- This number of newlines, if that is more important than the wish. -/
def raised (n : ℕ) (w : Str) : Str := if w.count '\n' < n then List.replicate n '\n' else w

mutual
/-- The elements of a tree. -/
def elems : Node.Tree Elem → List Elem
  | .node e cs => e :: elemsL cs
/-- The elements of a list of trees. -/
def elemsL : List (Node.Tree Elem) → List Elem
  | [] => []
  | c :: cs => elems c ++ elemsL cs
end

mutual
/-- A tree where `space_before` of all elements with a head and `space_before_tail` of all elements with a tail are left out. -/
def unspaced : Node.Tree Elem → Node.Tree Elem
  | .node e cs => .node { e with sp := { e.sp with
      before := if e.kind = .plain then e.sp.before else []
      beforeTail := if e.kind = .block then [] else e.sp.beforeTail } } (unspacedL cs)
/-- Trees with these left out. -/
def unspacedL : List (Node.Tree Elem) → List (Node.Tree Elem)
  | [] => []
  | c :: cs => unspaced c :: unspacedL cs
end

/-- The tail of the element was missing in the source text. -/
def tailMissing (e : Elem) : Bool := e.kind == .block && e.headOrigin.isSome && e.tailOrigin.isNone

/-- Texts with an origin are not empty. -/
def OriginsShown (t : Node.Tree Elem) : Prop := ∀ a ∈ pieces [] t, pos a ≠ none → a.text ≠ []

/-- Nothing in the tree asks for newlines by itself. For the space between children this means: not by the attribute
`space_between`, and the method that may override it does not return newlines for an element without newlines there. -/
def NoNewlines (cc : Concat) (t : Node.Tree Elem) : Prop :=
  (∀ e ∈ elems t, '\n' ∉ e.sp.before ∧ '\n' ∉ e.sp.afterHead ∧ '\n' ∉ e.sp.between ∧ '\n' ∉ e.sp.beforeTail ∧ '\n' ∉ e.sp.after) ∧
    ∀ e : Elem, '\n' ∉ e.sp.between → ∀ c d, '\n' ∉ cc e c d

end Quickly.Newlines.Spec
