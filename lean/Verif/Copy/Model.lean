import Verif.Edits.Model
import Verif.Space.Model

/-!
# Model of making and copying elements

`quickly/dom/element.py` L173-236, L437-448, L799-830, L842-859, L885-929.

An object has the slots that its class gives it. The classes are `Element` (L151), `HeadElement` (L796), `BlockElement`
(L831) and `TextElement` (L862) and classes derived from one of these; a class can't be derived from both `BlockElement`
and `TextElement`, because their slots are in conflict.
-/

namespace Quickly.Copy

open Quickly.Node Quickly.Text Quickly.Edits Quickly.Space

/-- From which of the four classes a class is derived. -/
inductive CKind where
  | plain
  | head
  | block
  | text
deriving DecidableEq

/-- What the classes `κ` of elements are like, for head values `η`: from what they are derived, the defaults of the
spacing attributes (L166-170), the fixed `head` and `tail`, what `write_head()` makes of the head value of a
`TextElement`, what `__init__()` makes of the head value that is given (the value itself, but `Duration` and
`DurationScaling`, `quickly/dom/lily.py` L1713 and L1794, make a fraction of it), and `concat_space()` with the value of
`space_between` and the classes of the two children (L595-605, and `quickly/dom/base.py` L44-47).

Simplified: `write_head()` and `write_tail()` do not look at the children or parents. -/
structure Classes (κ η : Type) where
  kind : κ → CKind
  dflt : κ → Name → Str
  head : κ → Str
  tail : κ → Str
  write : κ → η → Str
  init : κ → η → η
  concat : κ → Str → κ → κ → Str

/-- An object: its class and the slots, `none` when a slot is not set. The flags are the bits of `_modified` (for other
classes than `TextElement` it is the 0 of the class, L164). -/
structure Obj (κ η : Type) where
  cls : κ
  value : Option η := none
  space : Slot Str := none
  headOrigin : Option (List Tok) := none
  tailOrigin : Option (List Tok) := none
  headModified : Bool := false
  tailModified : Bool := false

variable {κ η : Type}

/-- `cls(**attrs)`, or `cls(head, **attrs)`, L173-176 and L889-892; the attributes are spacing attributes. Children are
in the tree, not in the object. -/
def new (C : Classes κ η) (k : κ) (v : η) (attrs : List (Name × Str)) : Obj κ η :=
  { cls := k
    value := if C.kind k = .text then some (C.init k v) else none
    space := attrs.foldl (fun o a => setProp (C.dflt k) a.1 a.2 o) none }

/-- `cls.with_origin(head_origin, tail_origin, **attrs)`, L805-815, L835-840, L910-913, where `v` is what `read_head()`
returns. The class `Element` has no such method. -/
def withOrigin (C : Classes κ η) (k : κ) (v : η) (ho tl : List Tok) (attrs : List (Name × Str)) : Obj κ η :=
  { new C k v attrs with
    headOrigin := some ho
    tailOrigin := if C.kind k = .block then some tl else none }

/-- `self.head = head`, L444-448. A class without the slot raises AttributeError, L447. -/
def setHead [DecidableEq η] (C : Classes κ η) (v : η) (o : Obj κ η) : Py (Obj κ η) :=
  if C.kind o.cls = .text then
    if o.value = some v then .ok o else .ok { o with value := some v, headModified := true }
  else .error .attributeError

/-- A statement that changes a spacing attribute. -/
def setSpace (C : Classes κ η) (op : Op Str) (o : Obj κ η) : Obj κ η :=
  { o with space := Space.step (C.dflt o.cls) o.space op }

/-- The first `try` of `copy_origin_from`, L216-222: the object, and `modified_flag`. The statements are abandoned at the
first AttributeError: the origin of `other` is not set, or the object itself has no such slot. -/
def copySlots (C : Classes κ η) (o other : Obj κ η) : Obj κ η × Bool × Bool :=
  match other.headOrigin with
  | none => (o, false, false)
  | some ho =>
    if C.kind o.cls = .plain then (o, false, false)
    else
      let o := { o with headOrigin := some ho }
      match other.tailOrigin with
      | none => (o, true, false)
      | some tl =>
        if C.kind o.cls = .block then ({ o with tailOrigin := some tl }, true, true)
        else (o, true, false)

/-- `self.copy_origin_from(other, modified)`, L200-231. Only a `TextElement` has a slot for `_modified`; for other
elements the assignment raises AttributeError, which is ignored, L223-231. -/
def copyOriginFrom (C : Classes κ η) (o other : Obj κ η) (modified : Option Bool) : Obj κ η :=
  match copySlots C o other with
  | (o, h, t) =>
    if C.kind o.cls = .text then
      match modified with
      | some true => { o with headModified := h, tailModified := t }
      | none => { o with headModified := other.headModified, tailModified := other.tailModified }
      | some false => { o with headModified := false, tailModified := false }
    else o

/-- What `copy()` makes of one node, L178-186 and L915-923. The keyword arguments are `getattr(self, '_spacing', {})`:
there is no attribute of that name (the slot is named `_space`, L161), so there are none. -/
def copyNode (C : Classes κ η) (o : Obj κ η) : Obj κ η :=
  match o.value with
  | some v => new C o.cls v []
  | none => { cls := o.cls }

/-- What `copy_with_origin()` makes of one node, L188-198 and L925-929. -/
def copyNodeWithOrigin (C : Classes κ η) (o : Obj κ η) : Obj κ η := copyOriginFrom C (copyNode C o) o none

/-- `copy()`, L178-186, L915-923. -/
def copy (C : Classes κ η) (t : Tree (Obj κ η)) : Tree (Obj κ η) := t.copy (copyNode C)

/-- `copy_with_origin()`, L188-198, L925-929. -/
def copyWithOrigin (C : Classes κ η) (t : Tree (Obj κ η)) : Tree (Obj κ η) := t.copy (copyNodeWithOrigin C)

/-- `origin[0].pos` and `origin[-1].end`; `none` for an empty origin. -/
def range : Option (List Tok) → Option (ℕ × ℕ)
  | some (a :: l) => some (a.1, ((a :: l).getLast (by simp)).2)
  | _ => none

/-- What the text output needs of an object. -/
def elem (C : Classes κ η) (o : Obj κ η) : Elem where
  kind := match C.kind o.cls with
    | .plain => .plain
    | .block => .block
    | _ => .head
  head := match o.value with
    | some v => C.write o.cls v
    | none => C.head o.cls
  tail := C.tail o.cls
  headOrigin := range o.headOrigin
  tailOrigin := range o.tailOrigin
  headModified := o.headModified
  tailModified := o.tailModified
  sp :=
    { before := getProp (C.dflt o.cls) .before o.space
      afterHead := getProp (C.dflt o.cls) .afterHead o.space
      between := getProp (C.dflt o.cls) .between o.space
      beforeTail := getProp (C.dflt o.cls) .beforeTail o.space
      after := getProp (C.dflt o.cls) .after o.space }

/-- `points()`, L561-593. -/
def points (C : Classes κ η) : Tree (Obj κ η) → List Point
  | .node o cs => (headPoint (elem C o) cs.length).toList ++ kids o cs ++ (tailPoint (elem C o)).toList
where
  /-- The loop over the children, L583-591. -/
  kids (o : Obj κ η) : List (Tree (Obj κ η)) → List Point
    | [] => []
    | n :: ns => (match ns with
      | m :: _ => collapseLast (points C n) (C.concat o.cls (elem C o).sp.between n.val.cls m.val.cls)
      | [] => if (tailPoint (elem C o)).isSome then points C n else collapseLast (points C n) (elem C o).sp.after) ++
        kids o ns

/-- `write()`, L607-615. -/
def write (C : Classes κ η) (t : Tree (Obj κ η)) : Str := (combine ((points C t).map Point.frag)).text

/-- `edits(context, start, end)`, L617-660. -/
def edits (C : Classes κ η) (ctx : Context) (start stop : Option ℕ) (t : Tree (Obj κ η)) : List Edit :=
  loop (stop.getD ctx.stop) (start.getD ctx.pos) ctx.tokens [] (points C t)

end Quickly.Copy
