import Verif.Basic
import Verif.Heap.Model
import Mathlib.Data.Int.Notation

/-!
# Model of changing a tree through a range, `quickly/node.py` L877-951, L1286-1315

`range[i] = value`, `range[i:j] = values`, `del range[i]` and `del range[i:j]` change the
children of the node the range iterates over, and adjust the iteration.  They
only look at, and change, the innermost iteration level, so that is the state of the model.
The trails are the lists the levels and the range share.
Children are of any type `β`.
-/

namespace Quickly.RangeEdit

variable {β : Type}

/-- `Range._Level`, `quickly/node.py` L1286-1297; `nodes` are the children of its node,
`stop` is the attribute `end`. -/
structure Level (β : Type) where
  nodes : List β
  depth : ℕ := 0
  st : Option (List ℤ) := none
  en : Option (List ℤ) := none
  start : ℤ
  stop : ℤ
  index : ℤ

/-- A trail where the code tests it for truth. -/
def truthy : Option (List ℤ) → Bool
  | some (_ :: _) => true
  | _ => false

/-- `start_trail[depth] if start_trail else 0`, L1295. -/
def startIndex (depth : ℕ) (st : Option (List ℤ)) : ℤ :=
  if truthy st then (st.getD []).getD depth 0 else 0

/-- The attribute `end`, L1296. -/
def stopIndex (len depth : ℕ) : Option (List ℤ) → ℤ
  | none => (len : ℤ) - 1
  | some e => e.getD depth (-1)

/-- `_Level(node, start_trail, end_trail, depth)`, L1288-1297. (A start trail that is too
short is an IndexError in the code; `child()` never makes such a level.) -/
def make (nodes : List β) (st en : Option (List ℤ)) (depth : ℕ) : Level β :=
  { nodes, depth, st, en, start := startIndex depth st, stop := stopIndex nodes.length depth en, index := -1 }

/-- The index `__next__` goes to, L1303. -/
def Level.nextIndex (l : Level β) : ℤ := if l.index = -1 then l.start else l.index + 1

/-- `self.node[index]`, L1307. -/
def item (nodes : List β) (i : ℤ) : Py β :=
  match Heap.itemIndex nodes.length i with
  | some k => match nodes[k]? with
    | some x => .ok x
    | none => .error .indexError
  | none => .error .indexError

/-- `_Level.__next__`, L1302-1307: none is StopIteration. -/
def Level.next (l : Level β) : Py (Option (β × Level β)) :=
  if l.nextIndex > l.stop then .ok none
  else match item l.nodes l.nextIndex with
    | .ok x => .ok (some (x, { l with index := l.nextIndex }))
    | .error e => .error e

/-- `adjust_start`, L884, and `adjust_end`, L885. -/
def adjusts (depth : ℕ) (trail : Option (List ℤ)) : Bool :=
  truthy trail && decide ((trail.getD []).length > depth)

/-- The bounds of `slice.indices(len)`, L891: the end may be before the begin. -/
def indices (len : ℕ) (i j : Option ℤ) : ℤ × ℤ :=
  ((match i with | none => (0 : ℤ) | some i => Heap.clamp len i),
    (match j with | none => (len : ℤ) | some j => Heap.clamp len j))

/-- The numbers of an edit: `index`, `removed`, `added`, `length`, L891-894. -/
structure Edit where
  index : ℤ
  removed : ℤ
  added : ℤ
  length : ℤ

/-- Does the change touch this index: L907 and L909, L920 and L921, L938 and L939. -/
def Edit.hits (e : Edit) (i : ℤ) : Bool := decide (e.index ≤ i ∧ e.index + e.removed > i)

/-- Is the change before this index: L907 and L914, L920 and L928, L938 and L941. -/
def Edit.before (e : Edit) (i : ℤ) : Bool := decide (e.index ≤ i ∧ ¬ e.index + e.removed > i)

/-- Where an index goes: L910 and L915, L922 and L929, L940 and L942. -/
def Edit.move (e : Edit) (i : ℤ) : ℤ :=
  if e.hits i then e.index + e.added
  else if e.before i then i + (e.added - e.removed)
  else i

/-- The start trail after the change, L906-917. -/
def newSt (l : Level β) (e : Edit) : Option (List ℤ) :=
  if adjusts l.depth l.st then
    if e.hits l.start then
      l.st.map fun s => s.take l.depth ++
        (if 0 < e.move l.start ∧ e.move l.start < e.length then [e.move l.start] else [])
    else if e.before l.start then l.st.map fun s => s.set l.depth (e.move l.start)
    else l.st
  else l.st

/-- The end trail after the change, L919-931. -/
def newEn (l : Level β) (e : Edit) : Option (List ℤ) :=
  if adjusts l.depth l.en then
    if e.hits l.stop then
      l.en.map fun s => s.take l.depth ++ (if e.move l.stop < e.length then [e.move l.stop] else [])
    else if e.before l.stop then l.en.map fun s => s.set l.depth (e.move l.stop)
    else l.en
  else l.en

/-- The end index after the change, L919-935. -/
def newStop (l : Level β) (e : Edit) : ℤ :=
  if e.index ≤ l.stop then e.move l.stop
  else if e.length ≠ 0 ∧ l.stop = -1 ∧ l.en = none then e.length - 1
  else l.stop

/-- The adjustments of L896-942. -/
def adjust (l : Level β) (e : Edit) : Level β :=
  if e.length = 0 then
    { l with
      start := 0, index := -1, stop := -1
      st := if truthy l.st then l.st.map fun s => s.take l.depth ++ [0] else l.st
      en := if truthy l.en then l.en.map fun s => s.take l.depth else l.en }
  else
    { l with
      start := e.move l.start, st := newSt l e
      stop := newStop l e, en := newEn l e
      index := e.move l.index }

/-- The edit of a slice. -/
def editOf (len : ℕ) (i j : Option ℤ) (added : ℕ) : Edit :=
  let (a, b) := indices len i j
  { index := a, removed := b - a, added := added, length := len + added - (b - a) }

/-- `range[i:j] = values`, L881-951. -/
def setSlice (l : Level β) (i j : Option ℤ) (values : List β) : Level β :=
  let (a, b) := Heap.sliceBounds l.nodes.length i j
  { adjust l (editOf l.nodes.length i j values.length) with
    nodes := l.nodes.take a ++ values ++ l.nodes.drop b }

/-- `del range[i:j]`, L953-957. -/
def delSlice (l : Level β) (i j : Option ℤ) : Level β := setSlice l i j []

/-- `del range[i]`, L953-957: the slice from `i` to `i + 1`. -/
def delItem (l : Level β) (i : ℤ) : Level β := setSlice l (some i) (some (i + 1)) []

/-- The trail after `range[i] = value`, L943-949. -/
def cut (l : Level β) (trail : Option (List ℤ)) (boundary i : ℤ) : Option (List ℤ) :=
  if adjusts l.depth trail ∧ i = boundary then trail.map fun s => s.take (l.depth + 1) else trail

/-- `range[i] = value`, L943-951. -/
def setItem (l : Level β) (i : ℤ) (value : β) : Py (Level β) :=
  match Heap.itemIndex l.nodes.length i with
  | some k => .ok { l with
      st := cut l l.st l.start i, en := cut l l.en l.stop i, nodes := l.nodes.set k value }
  | none => .error .indexError

end Quickly.RangeEdit
