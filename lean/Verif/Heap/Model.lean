import Verif.Basic
import Mathlib.Data.Nat.Notation
import Mathlib.Data.Int.Notation

/-!
# Model of changing a tree: `quickly/node.py`, nodes as objects

A node is an object: it has a list of child nodes and a link to a parent, which
are separate fields and are kept consistent only by the methods below.  Objects
are numbers.  The parent link is a weak reference in the code: the model assumes
that the parent is still alive, i.e. that the caller keeps a reference to the
root (as the class documentation demands, L153-155).
-/

namespace Quickly.Heap



/-- All node objects: how many were made, the list of children and the parent
link of each. -/
structure Heap where
  next : ℕ
  kids : ℕ → List ℕ
  par : ℕ → Option ℕ

/-- Before anything was made. -/
def empty : Heap := ⟨0, fun _ => [], fun _ => none⟩

/-- `node._parent = weakref.ref(self)`. -/
def setParent (h : Heap) (node : ℕ) (self : Option ℕ) : Heap :=
  { h with par := fun n => if n = node then self else h.par n }

/-- Set the parent of a number of nodes. -/
def setParents (h : Heap) (nodes : List ℕ) (self : ℕ) : Heap :=
  nodes.foldl (fun h n => setParent h n (some self)) h

/-- Change the list of children: what the methods of `list` do. -/
def setKids (h : Heap) (self : ℕ) (ks : List ℕ) : Heap :=
  { h with kids := fun n => if n = self then ks else h.kids n }

/-- An index in a slice, or for `list.insert`: negative counts from the end, and
it is clamped. -/
def clamp (len : ℕ) (i : ℤ) : ℕ :=
  if i < 0 then (i + len).toNat else min i.toNat len

/-- An index of an item; none is the IndexError. -/
def itemIndex (len : ℕ) (i : ℤ) : Option ℕ :=
  let j := if i < 0 then i + len else i
  if 0 ≤ j ∧ j < len then some j.toNat else none

/-- The begin and end of `slice(start, stop)`, the end not before the begin. -/
def sliceBounds (len : ℕ) (start stop : Option ℤ) : ℕ × ℕ :=
  let a := match start with | none => 0 | some i => clamp len i
  let b := match stop with | none => len | some i => clamp len i
  (a, max a b)

/-- A change to the nodes. -/
inductive Op where
  /-- `Node(*children)`, L234-245 -/
  | new (children : List ℕ)
  /-- `self.append(node)`, L318-321 -/
  | append (self node : ℕ)
  /-- `self.extend(nodes)`, L323-328 -/
  | extend (self : ℕ) (nodes : List ℕ)
  /-- `self.insert(index, node)`, L330-333 -/
  | insert (self : ℕ) (index : ℤ) (node : ℕ)
  /-- `self[k] = node`, L352-360 -/
  | setItem (self : ℕ) (k : ℤ) (node : ℕ)
  /-- `self[start:stop] = nodes`, L352-360; no step -/
  | setSlice (self : ℕ) (start stop : Option ℤ) (nodes : List ℕ)
  /-- `self.replace_with(node)`, L335-343 -/
  | replaceWith (self node : ℕ)
  /-- `self.take(start, end)`, L345-350 -/
  | take (self : ℕ) (start stop : Option ℤ)
  /-- `del self[k]`, inherited from list -/
  | delItem (self : ℕ) (k : ℤ)
  /-- `self.remove(node)`, inherited from list; compares by identity, L300-306 -/
  | remove (self node : ℕ)
  /-- `self.clear()`, inherited from list -/
  | clear (self : ℕ)
  /-- `node.parent = None`, L252-258 -/
  | clearParent (node : ℕ)

/-- `list.__setitem__(self, k, node)` after `node._parent` was set, L357-360. -/
def setItem (h : Heap) (self : ℕ) (k : ℤ) (node : ℕ) : Heap × Py (List ℕ) :=
  let h := setParent h node (some self)
  match itemIndex (h.kids self).length k with
  | some i => (setKids h self ((h.kids self).set i node), .ok [])
  | none => (h, .error .indexError)

/-- Carry out a change.  When an exception is raised halfway, the parent link may
have been set already.  The result is the list that `take` returns, or the new
node. -/
def run (h : Heap) : Op → Heap × Py (List ℕ)
  | .new cs =>
    let self := h.next
    let h := { h with next := h.next + 1, par := fun n => if n = self then none else h.par n,
                      kids := fun n => if n = self then cs else h.kids n }
    (setParents h cs self, .ok [self])
  | .append self node =>
    let h := setParent h node (some self)
    (setKids h self (h.kids self ++ [node]), .ok [])
  | .extend self nodes =>
    let index := (h.kids self).length
    let h := setKids h self (h.kids self ++ nodes)
    (setParents h ((h.kids self).drop index) self, .ok [])
  | .insert self index node =>
    let h := setParent h node (some self)
    let i := clamp (h.kids self).length index
    (setKids h self ((h.kids self).take i ++ node :: (h.kids self).drop i), .ok [])
  | .setItem self k node => setItem h self k node
  | .setSlice self start stop nodes =>
    let h := setParents h nodes self
    let (a, b) := sliceBounds (h.kids self).length start stop
    (setKids h self ((h.kids self).take a ++ nodes ++ (h.kids self).drop b), .ok [])
  | .replaceWith self node =>
    let h := setParent h node (some self)
    match h.par self with
    | none => (h, .error .attributeError)
    | some p =>
      if self ∈ h.kids p then setItem h p ((h.kids p).idxOf self) node
      else (h, .error .valueError)
  | .take self start stop =>
    let (a, b) := sliceBounds (h.kids self).length start stop
    (setKids h self ((h.kids self).take a ++ (h.kids self).drop b), .ok (((h.kids self).take b).drop a))
  | .delItem self k =>
    match itemIndex (h.kids self).length k with
    | some i => (setKids h self ((h.kids self).eraseIdx i), .ok [])
    | none => (h, .error .indexError)
  | .remove self node =>
    if node ∈ h.kids self then (setKids h self ((h.kids self).erase node), .ok [])
    else (h, .error .valueError)
  | .clear self => (setKids h self [], .ok [])
  | .clearParent node => (setParent h node none, .ok [])

end Quickly.Heap
