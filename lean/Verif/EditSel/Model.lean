import Verif.Cursor.Model
import Verif.Edits.Model

/-! # Model of `Edit`, `quickly/dom/edit.py` L35-153: editing the part of a document that is selected -/

namespace Quickly.EditSel

open Quickly.Node Quickly.Text Quickly.Find Quickly.Cursor Quickly.Edits

/-- A token with this position and end. -/
def tok (r : ℕ × ℕ) : Find.Tok := ⟨r.1, r.2⟩

/-- The origins of an element (`head_origin` and `tail_origin`), each as one token: only the position of the first and the
end of the last one are used. -/
def orgOf (v : Elem) : Org :=
  ⟨if v.kind = .plain then [] else (v.headOrigin.map tok).toList,
    if v.kind = .block then (v.tailOrigin.map tok).toList else []⟩

/-- The same for a tree. -/
def orgs : Tree Elem → Tree Org
  | .node v cs => .node (orgOf v) (go cs)
where
  /-- All trees. -/
  go : List (Tree Elem) → List (Tree Org)
    | [] => []
    | c :: cs => orgs c :: go cs

/-- The attributes `range_from_root`, `range_from_cursor` and `readonly`, L51-60. -/
structure Options where
  fromRoot : Bool := false
  fromCursor : Bool := false
  readonly : Bool := false

/-- `edit_cursor`, L92-133, for a document with the text `doc`, the tokens in the root context `ctx` and the DOM tree
`d`. `editRange` is the method that must be implemented by a subclass, L153-160; it changes the ancestor of the range. The
result is the new text of the document, and what `changes()` (L72-74) returns after it.

Simplified: `editRange` may not change nodes outside the ancestor of the range; they would not be written back. -/
def editCursor (cc : Concat) (doc : Str) (ctx : Context) (d : Tree Elem) (c : Cursor) (o : Options)
    (editRange : Job → Tree Elem → Py (Tree Elem)) : Py (Str × ℕ) :=
  match job (orgs d) c o.fromRoot o.fromCursor with
  | .error e => .error e
  | .ok j =>
    match d.get? j.ancestor.path with
    | none => .error .indexError
    | some a =>
      match editRange j a with
      | .error e => .error e
      | .ok a' =>
        if o.readonly then .ok (doc, 0)
        else .ok (Edits.edit cc doc ctx (j.start.map Int.toNat) (j.stop.map Int.toNat) a',
          (edits cc ctx (j.start.map Int.toNat) (j.stop.map Int.toNat) a').length)

/-- `edit_document`, L135-143: a cursor at the beginning of the document, without selection. -/
def editDocument (cc : Concat) (doc : Str) (ctx : Context) (d : Tree Elem) (o : Options)
    (editRange : Job → Tree Elem → Py (Tree Elem)) : Py (Str × ℕ) :=
  editCursor cc doc ctx d ⟨0, 0⟩ o editRange

end Quickly.EditSel
