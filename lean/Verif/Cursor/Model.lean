import Verif.Find.Model
import Verif.Range.Model

/-! # Model of `Edit.edit_cursor`, `quickly/dom/edit.py` L92-133: which nodes an edit of a selection visits -/

namespace Quickly.Cursor

open Quickly.Node Quickly.Find Quickly.NodeRange

/-- A `parce.Cursor`: the selection is from `pos` to `stop` (its attribute `end`); `has_selection()` is true when they
differ. -/
structure Cursor where
  pos : ℤ
  stop : ℤ

/-- `cursor.has_selection()`. -/
def Cursor.hasSelection (c : Cursor) : Bool := c.pos ≠ c.stop

/-- What `edit_cursor` makes: the ancestor of the Range, its trails, and the `start` and `end` that are given
to `Element.edit()`. -/
structure Job where
  ancestor : Ref
  st : Option Path
  en : Option Path
  start : Option ℤ
  stop : Option ℤ
  deriving DecidableEq

/-- A node of the DOM tree as a reference; the tree has number 0. -/
def refOf (n : Item Org) : Ref := ⟨0, n.1⟩

/-- `Range(d)`. -/
def whole : Job := ⟨⟨0, []⟩, none, none, none, none⟩

/-- `edit_cursor`, L109-124, for the DOM tree `d`: with a selection (L111-118), without one but with `range_from_cursor`
(L119-122), and otherwise the whole document (L123-124). -/
def job (d : Tree Org) (c : Cursor) (fromRoot fromCursor : Bool) : Py Job :=
  if c.hasSelection then
    match findRight c.pos ([], d) with
    | .error e => .error e
    | .ok startNode =>
    match findLeft c.stop ([], d) with
    | .error e => .error e
    | .ok endNode =>
    if startNode.isSome || endNode.isSome then
      match fromNodes (startNode.map refOf) (endNode.map refOf) fromRoot with
      | .error e => .error e
      | .ok (a, st, en) =>
        .ok ⟨a, st, en, startNode.bind fun n => Find.pos n.2, endNode.bind fun n => Find.stop n.2⟩
    else .ok whole
  else if fromCursor then
    match findRight c.pos ([], d) with
    | .error e => .error e
    | .ok none => .ok whole
    | .ok (some n) =>
      match fromNodes (some (refOf n)) none false with
      | .error e => .error e
      | .ok (a, st, en) => .ok ⟨a, st, en, none, none⟩
  else .ok whole

/-- The nodes that `edit_range` sees when it loops over `r.nodes()` (`Range.nodes`, see C33): `ns`, as places in the
document. -/
def Visits (d : Tree Org) (j : Job) (ns : List (Item Org)) : Prop :=
  ∃ x out, d.get? j.ancestor.path = some x ∧
    Runs nodesResume (fun _ => true) true (.init (make x j.st j.en)) [] out ∧
    ns = out.map fun m => (j.ancestor.path ++ m.1, m.2)

end Quickly.Cursor
