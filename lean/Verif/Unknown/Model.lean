import Verif.Edits.Model

/-!
# Model of regions that are not transformed, `quickly/dom/base.py` L159-190 and `quickly/dom/util.py` L137-150

The class `Unknown` is a `HeadElement` on which `write_head()` raises RuntimeError.
-/

namespace Quickly.Unknown

open Quickly.Node Quickly.Text

/-- A tree of elements; the flag tells that an element is an `Unknown`. The texts of those (`head`) are of
no importance. An origin without tokens is not modelled, as in `Text.Elem`. -/
abbrev UTree := Node.Tree (Elem × Bool)

/-- The elements. -/
def elems : UTree → Node.Tree Elem
  | .node v cs => .node v.1 (go cs)
where
  /-- The children. -/
  go : List UTree → List (Node.Tree Elem)
    | [] => []
    | c :: cs => elems c :: go cs

/-- `Element.pos`, `quickly/dom/element.py` L321-338: the position of the first token of the element, or of
the first descendant that has one. -/
def pos : UTree → Option ℕ
  | .node v cs => match v.1.headOrigin with
    | some r => some r.1
    | none => go cs
where
  /-- The descendants, L334-338. -/
  go : List UTree → Option ℕ
    | [] => none
    | c :: cs => match pos c with
      | some p => some p
      | none => go cs

/-- `Element.end`, L340-360: the end of the tail, or else of the last child that has an end, or else of the head. -/
def stop : UTree → Option ℕ
  | .node v cs => match v.1.tailOrigin with
    | some r => some r.2
    | none => match go cs with
      | some e => some e
      | none => v.1.headOrigin.map (·.2)
where
  /-- The children in reverse, L353-356. -/
  go : List UTree → Option ℕ
    | [] => none
    | c :: cs => match go cs with
      | some e => some e
      | none => stop c

/-- `text[a:b]`, where both may be None. -/
def pySlice (text : Str) (a b : Option ℕ) : Str := (text.take (b.getD text.length)).drop (a.getD 0)

/-- The `Text` node for an `Unknown`, `quickly/dom/util.py` L148-149. It has the default spacing and no children;
`copy_origin_from(n, True)`, `quickly/dom/element.py` L207-241, sets the flag `HEAD_MODIFIED` if there is an origin. -/
def textNode (text : Str) (n : UTree) : UTree :=
  .node ({ kind := .head, head := pySlice text (pos n) (stop n), headOrigin := n.val.1.headOrigin,
           headModified := n.val.1.headOrigin.isSome }, false) []

/-- `replace_unknown(tree, text)`, L137-150. Each descendant that is an `Unknown` is replaced in its parent, at the same index, while
`descendants()` goes on; what is below an `Unknown` goes with it. -/
def replaceUnknown (text : Str) : UTree → UTree
  | .node v cs => .node v (go cs)
where
  /-- The children. -/
  go : List UTree → List UTree
    | [] => []
    | c :: cs => (if c.val.2 then textNode text c else replaceUnknown text c) :: go cs

/-- There is an `Unknown` for which `f` holds. -/
def anyUnknown (f : Elem → Bool) : UTree → Bool
  | .node v cs => v.2 && f v.1 || go cs
where
  /-- The children. -/
  go : List UTree → Bool
    | [] => false
    | c :: cs => anyUnknown f c || go cs

/-- `write()`: it calls `write_head()` on every element that has a head, `quickly/dom/element.py` L612-614. -/
def write (cc : Concat) (t : UTree) : Py Str :=
  if anyUnknown (fun _ => true) t then .error .runtimeError else .ok (Text.write cc (elems t))

/-- `edit()`: it calls `write_head()` on the elements without origin (L633) and on those that are modified (L655); the flag of an
`Unknown` is never set, as the class has no place for it. -/
def edit (cc : Concat) (doc : Str) (ctx : Edits.Context) (start stop : Option ℕ) (t : UTree) : Py Str :=
  if anyUnknown (fun e => e.headOrigin.isNone) t then .error .runtimeError
  else .ok (Edits.edit cc doc ctx start stop (elems t))

/-- `copy()`, L178-186 and (for the head elements that have a text) L915-923: without origin. That spacing other than the default of the class
gets lost is of no importance here. -/
def copy : UTree → UTree
  | .node v cs => .node ({ v.1 with headOrigin := none, tailOrigin := none, headModified := false, tailModified := false }, v.2) (go cs)
where
  /-- The children. -/
  go : List UTree → List UTree
    | [] => []
    | c :: cs => copy c :: go cs

end Quickly.Unknown
