import Verif.Node.Model
import Mathlib.Data.Int.Notation

/-!
# Model of `quickly.node.Range`, `quickly/node.py` L627-1355

A range is an ancestor node with a start trail and an end trail.  Nodes are named
by their place below the ancestor.  The model covers a range whose trails lead to
nodes that exist, and a tree that does not change; where the code would raise an
IndexError for a trail that leads nowhere the model stops.
Not modelled here: changing the tree through the range (see `RangeEdit/Model.lean`), the operators
(`/`, `//` and so on) and the argument `upto` of `forward` and `backward`, which is None in
`nodes()` (see `RangeWalk/Model.lean`), and `ls` and `pwd`.
-/

namespace Quickly.NodeRange

open Quickly.Node

variable {α : Type}

/-- `start_trail` where the code tests it for truth: None and the empty list
are both false. -/
def truthy : Option Path → Option Path
  | some (i :: p) => some (i :: p)
  | _ => none

/-- `Range._Level`, `quickly/node.py` L1286-1298: iteration over the children of a
node.  `index = none` is the index -1; `stop` is the attribute `end`. -/
structure Level (α : Type) where
  node : Item α
  depth : ℕ
  st : Option Path
  en : Option Path
  start : ℕ
  stop : ℤ
  index : Option ℕ

/-- The index in `start_trail[depth] if start_trail else 0`, L1295. -/
def startIndex (st : Option Path) (depth : ℕ) : ℕ :=
  match truthy st with
  | some s => s[depth]?.getD 0
  | none => 0

/-- `end_trail[depth] if len(end_trail) > depth else -1`, L1296. -/
def trailIndex (e : Path) (depth : ℕ) : ℤ :=
  match e[depth]? with
  | some i => i
  | none => -1

/-- The attribute `end`, L1296. -/
def stopIndex (en : Option Path) (depth : ℕ) (len : ℕ) : ℤ :=
  match en with
  | none => (len : ℤ) - 1
  | some e => trailIndex e depth

/-- `_Level(node, start_trail, end_trail, depth)`, L1288-1297. -/
def Level.make (node : Item α) (st en : Option Path) (depth : ℕ) : Level α where
  node := node
  depth := depth
  st := st
  en := en
  start := startIndex st depth
  stop := stopIndex en depth node.2.children.length
  index := none

/-- The child with the index, as an item. -/
def itemAt (n : Item α) (i : ℕ) : Option (Item α) :=
  match n.2.children[i]? with
  | some c => some (n.1 ++ [i], c)
  | none => none

/-- The index that `__next__` goes to, L1303. -/
def Level.nextIndex (l : Level α) : ℕ :=
  match l.index with
  | none => l.start
  | some i => i + 1

/-- `_Level.__next__`, L1302-1307. -/
def Level.next (l : Level α) : Option (Item α × Level α) :=
  if (l.nextIndex : ℤ) > l.stop then none
  else match itemAt l.node l.nextIndex with
    | some n => some (n, { l with index := some l.nextIndex })
    | none => none

/-- The index that `reversed` goes to, L1311. -/
def Level.prevIndex (l : Level α) : ℤ :=
  match l.index with
  | none => l.stop
  | some i => (i : ℤ) - 1

/-- One step of `_Level.reversed`, L1309-1315. -/
def Level.prev (l : Level α) : Option (Item α × Level α) :=
  if l.prevIndex < (l.start : ℤ) then none
  else match itemAt l.node l.prevIndex.toNat with
    | some n => some (n, { l with index := some l.prevIndex.toNat })
    | none => none

/-- `iter(level)` or `level.reversed()`. -/
def Level.step (rev : Bool) (l : Level α) : Option (Item α × Level α) := if rev then l.prev else l.next

/-- The start trail of a child level, L1327-1328. -/
def Level.childSt (l : Level α) (i : ℕ) : Option Path :=
  match truthy l.st with
  | some s => if i = l.start ∧ s.length > l.depth + 1 then some s else none
  | none => none

/-- The end trail of a child level, L1329. -/
def Level.childEn (l : Level α) (i : ℕ) : Option Path :=
  match l.en with
  | some e => if (i : ℤ) = l.stop then some e else none
  | none => none

/-- `_Level.child(index)`, L1317-1330. -/
def Level.childAt (l : Level α) (i : ℕ) : Option (Level α) :=
  match itemAt l.node i with
  | none => none
  | some n => some (Level.make n (l.childSt i) (l.childEn i) (l.depth + 1))

/-- `_Level.start_in_range`, L1332-1334. -/
def Level.startInRange (l : Level α) : Bool :=
  match truthy l.st with
  | some s => !((s.drop l.depth).any (· != 0))
  | none => true

/-- The loop of `_Level.end_in_range`, L1340-1344. -/
def endLoop : Tree α → Path → Bool
  | n, [] => n.children.isEmpty
  | n, i :: e =>
    if (i : ℤ) < (n.children.length : ℤ) - 1 then false
    else match n.children[i]? with
      | some c => endLoop c e
      | none => false

/-- `_Level.end_in_range`, L1336-1344. -/
def Level.endInRange (l : Level α) : Bool :=
  match l.en with
  | none => true
  | some e => endLoop l.node.2 (e.drop l.depth)

/-- A range: the ancestor, the trails, and the stack of levels, the innermost first. -/
structure Range (α : Type) where
  tree : Tree α
  st : Option Path
  en : Option Path
  stack : List (Level α)

/-- `Range(ancestor, start_trail, end_trail)`, L699-708. -/
def make (t : Tree α) (st en : Option Path) : Range α :=
  ⟨t, st, en, [Level.make ([], t) st en 0]⟩

/-- The node of a level with an index, or the level's node itself: the property
`node`, L962-963. -/
def Level.current (l : Level α) : Option (Item α) :=
  match l.index with
  | none => some l.node
  | some i => itemAt l.node i

/-- The current node. -/
def Range.node (r : Range α) : Option (Item α) :=
  match r.stack with
  | l :: _ => l.current
  | [] => none

/-- The level that `from_here` and `in_range` look at: that of the current node
(L780-782, L1036-1040). -/
def Level.here (l : Level α) : Option (Level α) :=
  match l.index with
  | some i => l.childAt i
  | none => some l

/-- The start trail of the new range, L782. -/
def Level.hereSt (l : Level α) : Option Path :=
  match truthy l.st with
  | some s => truthy (some (s.drop l.depth))
  | none => none

/-- The end trail of the new range, L783. -/
def Level.hereEn (l : Level α) : Option Path :=
  match l.en with
  | some e => some (e.drop l.depth)
  | none => none

/-- `from_here()`, L773-784. -/
def Range.fromHere (r : Range α) : Option (Range α) :=
  match r.stack with
  | [] => none
  | l :: _ => match l.here with
    | none => none
    | some l => some (make l.node.2 l.hereSt l.hereEn)

/-- `bool(range)`, L786-789. -/
def Range.bool (r : Range α) : Bool :=
  match r.stack.getLast? with
  | some l => (l.start : ℤ) ≤ l.stop
  | none => false

/-- `_get_trail(node)`, L802-817, for an ancestor `base`. -/
def getTrail (base node : Ref) : Option Path :=
  if node = base then some [] else loop node.ancestorsWithIndex []
where
  /-- The loop L813-817. -/
  loop : List (Ref × ℕ) → List ℕ → Option Path
    | [], _ => none
    | (p, i) :: ns, trail => if p = base then some (trail ++ [i]).reverse else loop ns (trail ++ [i])

/-- `is_full()`, L858-862. -/
def Range.isFull (r : Range α) : Bool :=
  match r.stack.getLast? with
  | some l => l.startInRange && l.endInRange
  | none => false

/-- `trail < other` for lists of integers. -/
def pyLt : List ℕ → List ℕ → Bool
  | [], [] => false
  | [], _ :: _ => true
  | _ :: _, [] => false
  | a :: as, b :: bs => if a = b then pyLt as bs else a < b

/-- The test `self.start_trail and trail < self.start_trail` of `_trail_in_range`, L826-827. -/
def beforeStart (st : Option Path) (trail : Path) : Bool :=
  match truthy st with
  | some s => pyLt trail s
  | none => false

/-- The test `self.end_trail is not None and trail > self.end_trail` of `_trail_in_range`, L829-830. -/
def afterEnd (en : Option Path) (trail : Path) : Bool :=
  match en with
  | some e => pyLt e trail
  | none => false

/-- `_trail_in_range(trail)`, L819-832. -/
def Range.trailInRange (r : Range α) (trail : Path) : Bool :=
  if trail = [] then r.isFull
  else if beforeStart r.st trail then false
  else if afterEnd r.en trail then false
  else true

/-- `_trail_intersects(trail)`, L834-842; `a >= b` is `not a < b`. -/
def Range.trailIntersects (r : Range α) (trail : Path) : Bool :=
  (match truthy r.st with
    | some s => !pyLt trail (s.take trail.length)
    | none => true) &&
  (match truthy r.en with
    | some e => !pyLt (e.take trail.length) trail
    | none => true)

/-- `node in range`, L791-800. -/
def Range.contains (r : Range α) (base node : Ref) : Bool :=
  match getTrail base node with
  | some trail => r.trailInRange trail
  | none => false

/-- `range.intersects(node)`, `range & node`, L844-858. -/
def Range.intersects (r : Range α) (base node : Ref) : Bool :=
  match getTrail base node with
  | some trail => r.trailIntersects trail
  | none => false

/-- `in_range()`, L1033-1041. -/
def Range.inRange (r : Range α) : Bool :=
  match r.stack with
  | [] => false
  | l :: _ =>
    if (match l.index with
      | some i => decide (l.start < i ∧ (i : ℤ) < l.stop)
      | none => false) then true
    else match l.here with
      | some l => l.startInRange && l.endInRange
      | none => false

/-- The inner part of `_goto_trail`, L1051-1055: the stack after the loop. -/
def gotoLoop : List (Level α) → Path → Option (List (Level α))
  | l :: ls, [i] => some ({ l with index := some i } :: ls)
  | l :: ls, i :: j :: p =>
    match l.childAt i with
    | some c => gotoLoop (c :: { l with index := some i } :: ls) (j :: p)
    | none => none
  | ls, _ => some ls

/-- `reset()`, L1069-1072: only the outermost level stays, without index. -/
def Range.reset (r : Range α) : Range α :=
  match r.stack.getLast? with
  | some l => { r with stack := [{ l with index := none }] }
  | none => r

/-- `_goto_trail(trail)`, L1043-1055. -/
def Range.gotoTrail (r : Range α) (trail : Path) : Option (Range α) :=
  let r := r.reset
  match gotoLoop r.stack trail with
  | some ls => some { r with stack := ls }
  | none => none

/-- `goto(node)`, L1057-1067: what it returns, and the range afterwards. -/
def Range.goto (r : Range α) (base node : Ref) : Option (Bool × Range α) :=
  match getTrail base node with
  | none => some (false, r)
  | some trail =>
    if r.trailIntersects trail then
      match r.gotoTrail trail with
      | some r => some (true, r)
      | none => none
    else some (false, r)

/-- `enter()`, L1074-1086, on the stack. -/
def enter : List (Level α) → List (Level α)
  | l :: ls => match l.index with
    | none => l :: ls
    | some i => match l.childAt i with
      | some c => c :: l :: ls
      | none => l :: ls
  | [] => []

/-- What happens when a `yield n` returns: `is not False and len(n): self.enter()`. -/
def sent (pending : Option (Item α)) (ok : Bool) (ls : List (Level α)) : List (Level α) :=
  match pending with
  | some n => if ok && !n.2.children.isEmpty then enter ls else ls
  | none => ls

/-- The loop of `forward()` (L1163-1170) and `backward()` (L1183-1190) up to the next
yield: `leave()` (L1088-1100) pops a level and returns how many there are, 0 for
the outermost. -/
def fwdAdvance (rev : Bool) : List (Level α) → Option (Item α × List (Level α))
  | [] => none
  | l :: ls =>
    match l.step rev with
    | some (n, l) => some (n, l :: ls)
    | none => fwdAdvance rev ls

/-- The generators `forward()` and `backward()`: the node just yielded and the stack. -/
def fwdResume (rev : Bool) : Resume (Option (Item α) × List (Level α)) α := fun s ok =>
  match fwdAdvance rev (sent s.1 ok s.2) with
  | some (n, ls) => some (n, (some n, ls))
  | none => none

/-- The loop of `descendants()`, L1232-1239, up to the next yield, or to the end, with
the stack at the end. -/
def descAdvance (rev : Bool) (depth : ℕ) : List (Level α) → (Item α × List (Level α)) ⊕ List (Level α)
  | [] => .inr []
  | l :: ls =>
    match l.step rev with
    | some (n, l) => .inl (n, l :: ls)
    | none => match ls with
      | [] => .inr [{ l with index := none }]
      | m :: ms => if ms.length + 1 = depth then .inr (m :: ms) else descAdvance rev depth (m :: ms)

/-- The generator `descendants(reverse)`, L1218-1239: before the first yield
(`depth = none`) it enters the current node. -/
structure DState (α : Type) where
  depth : Option ℕ
  pending : Option (Item α)
  stack : List (Level α)

/-- Resume `descendants`: the node and the state, or the stack at the end. -/
def descGo (rev : Bool) (s : DState α) (ok : Bool) : (Item α × DState α) ⊕ List (Level α) :=
  match s.depth with
  | none =>
    let ls := enter s.stack
    match descAdvance rev (ls.length - 1) ls with
    | .inl (n, ls') => .inl (n, ⟨some (ls.length - 1), some n, ls'⟩)
    | .inr ls => .inr ls
  | some depth =>
    match descAdvance rev depth (sent s.pending ok s.stack) with
    | .inl (n, ls) => .inl (n, ⟨some depth, some n, ls⟩)
    | .inr ls => .inr ls

/-- `descendants(reverse)` as a generator. -/
def descResume (rev : Bool) : Resume (DState α) α := fun s ok =>
  match descGo rev s ok with
  | .inl x => some x
  | .inr _ => none

/-- The states of `nodes()`, L1128-1144: before the start, the start node was
yielded (L1142), in `descendants()` (L1143), in `forward()` (L1144). -/
inductive NState (α : Type) where
  | init (r : Range α)
  | first (n : Item α) (stack : List (Level α))
  | desc (s : DState α)
  | fwd (s : Option (Item α) × List (Level α))

/-- `yield from self.forward()`, L1144. -/
def nodesFwd (s : Option (Item α) × List (Level α)) (ok : Bool) : Option (Item α × NState α) :=
  match fwdResume false s ok with
  | some (n, s) => some (n, .fwd s)
  | none => none

/-- `yield from self.descendants()`, L1143, and then L1144. -/
def nodesDesc (s : DState α) (ok : Bool) : Option (Item α × NState α) :=
  match descGo false s ok with
  | .inl (n, s) => some (n, .desc s)
  | .inr ls => nodesFwd (none, ls) true

/-- Resume `nodes()`. -/
def nodesResume : Resume (NState α) α
  | .init r, _ =>
    match truthy r.st with
    | some s => match r.gotoTrail s with
      | some r => match r.node with
        | some n => some (n, .first n r.stack)
        | none => none
      | none => none
    | none => nodesFwd (none, r.reset.stack) true
  | .first n ls, ok =>
    if ok && !n.2.children.isEmpty then nodesDesc ⟨none, none, ls⟩ true else nodesFwd (none, ls) true
  | .desc s, ok => nodesDesc s ok
  | .fwd s, ok => nodesFwd s ok

/-- Open nodes of the tree that `extract_tree` builds, the innermost first: the
value and the children it has until now.  The children of an open node that come
before the next open node are closed. -/
abbrev Frames (α : Type) := List (α × List (Tree α))

/-- `node.append(c)` for the innermost open node. -/
def addLeaf (c : Tree α) : Frames α → Frames α
  | (v, cs) :: fs => (v, cs ++ [c]) :: fs
  | [] => []

/-- The whole tree with the open nodes as the last children. -/
def plug : Frames α → Option (Tree α)
  | [] => none
  | [(v, cs)] => some (.node v cs)
  | (v, cs) :: (w, ds) :: fs => plug ((w, ds ++ [.node v cs]) :: fs)
termination_by fs => fs.length

/-- `node = node.parent`. -/
def closeTop : Frames α → Frames α
  | (v, cs) :: (w, ds) :: fs => (w, ds ++ [.node v cs]) :: fs
  | fs => fs

/-- The loop of `extract_tree`, L1108-1121, with `f` what `copy(False)` makes of a
value: from the stack of the new range and the open nodes, to the tree. -/
inductive Extracts (f : α → α) : List (Level α) → Frames α → Tree α → Prop
  | leaf {l ls n l' fs t} : l.next = some (n, l') → n.2.children = [] →
      Extracts f (l' :: ls) (addLeaf (.node (f n.2.val) []) fs) t → Extracts f (l :: ls) fs t
  | descend {l ls n l' fs t} : l.next = some (n, l') → n.2.children ≠ [] →
      Extracts f (enter (l' :: ls)) ((f n.2.val, []) :: fs) t → Extracts f (l :: ls) fs t
  | leave {l m ms fs t} : l.next = none →
      Extracts f (m :: ms) (closeTop fs) t → Extracts f (l :: m :: ms) fs t
  | done {l fs t} : l.next = none → plug fs = some t → Extracts f [l] fs t

/-- `extract_tree()`, L1102-1122. -/
def ExtractTree (f : α → α) (r : Range α) (t : Tree α) : Prop :=
  ∃ r', r.fromHere = some r' ∧ Extracts f r'.stack [(f r'.tree.val, [])] t

/-- `Range.from_nodes(start_node, end_node, from_root)`, L719-748: the ancestor and
the trails. -/
def fromNodes (a b : Option Ref) (fromRoot : Bool) : Py (Ref × Option Path × Option Path) :=
  match a, b with
  | some a, some b =>
    if !fromRoot then
      match a.commonAncestorWithTrail b with
      | some (n, s, e) => .ok (n, some s, some e)
      | none => .error .valueError
    else if b.rootNode = a.rootNode then .ok (a.rootNode, some a.trail, some b.trail)
    else .error .valueError
  | some a, none => .ok (a.rootNode, some a.trail, none)
  | none, some b => .ok (b.rootNode, none, some b.trail)
  | none, none => .error .valueError

end Quickly.NodeRange
