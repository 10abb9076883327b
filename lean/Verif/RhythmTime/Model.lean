import Verif.Length.Model
import Verif.Add.Model

/-!
# Model of `quickly/rhythm.py` on the nodes of a document

`Verif.Rhythm` has the duration of a node as a field of its label.  Here the nodes are those of the document, as in
`Verif.Length`: the Duration of a note is one of its children, an edit adds, removes or changes this child, and `Time` then
reads the edited nodes.

Simplifications: a range is given as an interval of the numbers (in document order) of the HandleDuration nodes of the
document, so a number does not change when a Duration is added or removed.  Durations and scalings are Fractions.  A node
gets or loses its own Duration after the edit of its other children instead of before; the edits only look at the class of
the children, and there are no durables in a Duration.
-/

namespace Quickly.RhythmTime

open Quickly.Node Quickly.Signature Quickly.Length

/-- `isinstance(node, (cls, ...))`. -/
def isAny (n : Nd) (cs : List Cls) : Bool := cs.any fun c => isA c n

/-- `child_order()` of the durables, `quickly/dom/lily.py`: Chord L1459, Note L1482, Unpitched L1522, RestType L1528,
PitchedRest L1550, Space L1558, Skip L1599, Q L1621, Drum L1627, LyricItem L1822, LyricText L1833, LyricSkip L1854.  To
other nodes nothing is added. -/
def childOrder : Cls → List (List (List Cls))
  | .Chord => [[[.ChordBody], [.Duration], [.Articulations], [.Comment]]]
  | .Note => [[[.Octave], [.Accidental], [.OctCheck], [.Duration], [.Articulations], [.Comment]]]
  | .PitchedRest =>
    [[[.Octave], [.Accidental], [.OctCheck], [.Duration], [.RestModifier], [.Articulations], [.Comment]]]
  | .Unpitched | .RestType | .Rest | .MultiMeasureRest | .Space | .Q | .Drum => [[[.Duration], [.Articulations], [.Comment]]]
  | .Skip | .LyricText | .LyricSkip => [[[.Duration], [.Comment]]]
  | .LyricItem => [[[.Scheme, .String, .Symbol, .Markup], [.Duration], [.Comment]]]
  | _ => []

/-- `Duration.from_duration(duration, scaling)`, L1741-1756; also what the setter of `duration_scaling` (L182-187) adds to a
node without a Duration. -/
def fromDuration (d : D) : Nd :=
  .node (.Duration, .value d.1) (if d.2 = 1 then [] else [.node (.DurationScaling, .value d.2) []])

/-- The loop `for s in scaling: d.remove(s)` in the setter of `scaling`, L159-160: the iterator skips the child after a
child that is removed. -/
def drain : List Nd → List Nd
  | [] => []
  | [x] => if isA .DurationScaling x then [] else [x]
  | x :: y :: rest => if isA .DurationScaling x then y :: drain rest else x :: drain (y :: rest)

/-- The children of a Duration after its scaling is set, L148-164. -/
def setScaling (s : ℚ) (ds : List Nd) : List Nd :=
  match ds.dropWhile (fun x => !isA .DurationScaling x) with
  | [] => if s = 1 then ds else .node (.DurationScaling, .value s) [] :: ds
  | .node l xs :: rest =>
    ds.takeWhile (fun x => !isA .DurationScaling x) ++
      (if s = 1 then rest.take 1 ++ drain (rest.drop 1) else .node (l.1, .value s) xs :: drain rest)

/-- What an edit does with the Duration of a node. -/
inductive Change where
  /-- nothing -/
  | keep
  /-- `del node.duration`, L121-125 -/
  | del
  /-- `node.add(duration)` -/
  | add (duration : Nd)
  /-- `node.duration_scaling = ...` for a node with a Duration, L182-187; `node.duration = ...` (L108-119) if there is no
  scaling -/
  | set (duration : ℚ) (scaling : Option ℚ)

/-- Changes the first Duration. -/
def setFirst (q : ℚ) (s : Option ℚ) : List Nd → List Nd
  | [] => []
  | .node l cs :: rest =>
    if isA .Duration (.node l cs) then
      .node (l.1, .value q) (match s with
        | some s => setScaling s cs
        | none => cs) :: rest
    else .node l cs :: setFirst q s rest

/-- The children of a node of the class after the change. -/
def Change.apply (c : Cls) (cs : List Nd) : Change → List Nd
  | .keep => cs
  | .del => cs.eraseP (isA .Duration)
  | .add d => Add.add isAny (childOrder c) cs d
  | .set q s => setFirst q s cs

/-- `duration_required`: L93, L202, L1520 (Unpitched), L1580 (Skip), L1826-1828 (LyricItem). -/
def required (n : Nd) : Bool :=
  isA .Unpitched n || isA .Skip n ||
    (isA .LyricItem n && !n.children.any fun c => isAny c [.Scheme, .String, .Symbol, .Markup])

/-- The test in `EditRhythm.durables`, `quickly/rhythm.py` L42-50. -/
def isDurable (n : Nd) : Bool := isA .Durable n && !(isA .Skip n && !n.children.any (isA .Duration))

/-- `EditRhythm.may_remove`, L53-75; `right` is the right sibling. -/
def mayRemove (n : Nd) (right : Option Nd) : Bool :=
  if required n then false
  else if n.children.any (isA .Articulations) then true
  else
    match right with
    | none => true
    | some r => if isA .Unpitched r then false else if isA .LyricItem r && required r then false else true

/-- What is done with one node: from the state, the number of the node, what `node.backward()` yields, the right sibling
and the node, to the new state and the change. -/
abbrev Proc (σ : Type) := σ → ℕ → List Nd → Option Nd → Nd → σ × Change

mutual
/-- A walk over a node and its descendants in document order, `for n in r.nodes()`; `i` is the number of the node, `which`
tells for which nodes `p` is called.  `before` is what `node.backward()` yields. -/
def walk {σ : Type} (p : Proc σ) (which : ℕ → Nd → Bool) (st : σ) (i : ℕ) (before : List Nd) (right : Option Nd) :
    Nd → σ × ℕ × Nd
  | .node l cs =>
    let (st, ch) := if which i (.node l cs) then p st i before right (.node l cs) else (st, .keep)
    let (st, i, cs) := walkL p which st (if isA .HandleDuration (.node l cs) then i + 1 else i) before cs
    (st, i, .node l (ch.apply l.1 cs))
/-- The walk over the children of a node. -/
def walkL {σ : Type} (p : Proc σ) (which : ℕ → Nd → Bool) (st : σ) (i : ℕ) (before : List Nd) :
    List Nd → σ × ℕ × List Nd
  | [] => (st, i, [])
  | c :: cs =>
    let (st, i, c) := walk p which st i before cs.head? c
    let (st, i, cs) := walkL p which st i (rev c ++ before) cs
    (st, i, c :: cs)
end

/-- The durables in the range of the nodes with number `a ≤ i < b`. -/
def inRange (a b : ℕ) (i : ℕ) (n : Nd) : Bool := decide (a ≤ i ∧ i < b) && isDurable n

/-- `RhythmExplicit.process`, L119-127; the state is the Duration node `prev`. -/
def explicitProc : Proc (Option Nd) := fun prev _ before _ n =>
  match n.children.find? (isA .Duration) with
  | none =>
    let d := match prev with
      | none => fromDuration (previousDuration before)
      | some d => d
    (some d, .add d)
  | some d => (if setsPrevious n then some d else prev, .keep)

/-- `RhythmImplicit.process`, L132-140. -/
def implicitProc : Proc (Option D) := fun prev _ _ right n =>
  match durationScaling n with
  | none => (prev, .keep)
  | some d =>
    if decide (prev = some d) && mayRemove n right then (prev, .del)
    else (if setsPrevious n then some d else prev, .keep)

/-- `RhythmImplicitPerLine.process`, L152-167; `block` is `find_block()` for the node with a number. -/
def perLineProc (block : ℕ → Option ℕ) : Proc (Option (D × Option ℕ)) := fun prev i _ right n =>
  match durationScaling n with
  | some d =>
    if decide (prev = some (d, block i)) && mayRemove n right then (prev, .del)
    else (if setsPrevious n then some (d, block i) else prev, .keep)
  | none =>
    match block i, prev with
    | some k, some (d, m) => if m ≠ some k then (some (d, some k), .add (fromDuration d)) else (prev, .keep)
    | _, _ => (prev, .keep)

/-- The body of the loop of `RhythmTransform.edit_range`, L222-230; the state is the exception that ended the edit, if
any. -/
def transformProc (t : Duration.Transform) : Proc (Option PyErr) := fun st _ _ _ n =>
  match st, durationScaling n with
  | none, some d =>
    match t.transform d.1 d.2 with
    | .error e => (some e, .keep)
    | .ok d' => if isA .Tempo n then (none, .set d'.1 none) else (none, .set d'.1 (some d'.2))
  | st, _ => (st, .keep)

/-- `explicit(music)`, L331, on the nodes at the toplevel of a document. -/
def explicit (a b : ℕ) (doc : List Nd) : List Nd := (walkL explicitProc (inRange a b) none 0 [] doc).2.2
/-- `implicit(music)`, L336. -/
def implicit (a b : ℕ) (doc : List Nd) : List Nd := (walkL implicitProc (inRange a b) none 0 [] doc).2.2
/-- `implicit(music, per_line=True)`, L336. -/
def implicitPerLine (block : ℕ → Option ℕ) (a b : ℕ) (doc : List Nd) : List Nd :=
  (walkL (perLineProc block) (inRange a b) none 0 [] doc).2.2
/-- `transform(music, log, dotcount, scale)`, L366. -/
def transform (t : Duration.Transform) (a b : ℕ) (doc : List Nd) : Option PyErr × List Nd :=
  let (st, _, doc) := walkL (transformProc t) (fun i n => decide (a ≤ i ∧ i < b) && isA .HandleDuration n) none 0 [] doc
  (st, doc)

end Quickly.RhythmTime
