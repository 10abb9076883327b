import Verif.Rel2abs.Model
import Verif.Node.Model

/-!
# Model of `Abs2rel` on the nodes of a document

`Abs2rel.edit_range` (`quickly/relative.py` L189-205) goes through a range and replaces nodes in it.  A node that was replaced is not
entered, and no list gets longer or shorter, so a document is a tree here.

Simplified: the value of a node is just what the code distinguishes (name, octave and octave check of a note are in it, C51), a `lily.Chord` has no
Pitchable among its own children (they are in its `ChordBody`), the version of the document is a setting (`firstAbs`), and the language
that was found before the range (`find_language`, L184-185) is given. -/

namespace Quickly.Abs2rel

open Quickly.Pitch Quickly.Relative
open Quickly.Node (Path)

/-- What the code sees of a node: a `lily.MusicList`, or one of the nodes that `Rel2abs` distinguishes. -/
inductive Lab
  | list
  | lab (l : Rel2abs.Lab)
  deriving DecidableEq

/-- A node with the nodes in it. -/
inductive Doc
  | node (lab : Lab) (kids : List Doc)

/-- What the node is. -/
def Doc.lab : Doc → Lab
  | .node l _ => l

/-- The children. -/
def Doc.kids : Doc → List Doc
  | .node _ ks => ks

/-- `isinstance(n, lily.Pitchable)`. -/
def Doc.isNote (d : Doc) : Bool :=
  match d.lab with
  | .lab (.note _ _ _) => true
  | _ => false

mutual
/-- One node that `relative_notes` comes to, L245-261, with the language of the processor.  In a chord there is nothing to do, and
`\key`, `\inversion`, `\absolute`, `\fixed`, `\transpose`, `\transposition` and `\stringTuning` are passed over (L254-258). -/
def notes (pp : Langs) (st : Settings) (s : RelState) (L : Str) : Doc → Py (RelState × Str × Doc)
  | .node (.lab (.language l)) ks => .ok (s, l, .node (.lab (.language l)) ks)
  | .node (.lab (.note p nd chk)) ks => match relNote pp st s { node := nd, check := chk, lang := L } with
    | .error e => .error e
    | .ok (s, n) => .ok (s, L, .node (.lab (.note p n.node n.check)) ks)
  | .node (.lab .chord) ks => .ok (s, L, .node (.lab .chord) ks)
  | .node (.lab (.skip k)) ks => .ok (s, L, .node (.lab (.skip k)) ks)
  | .node l ks => match notesL pp st s L ks with
    | .error e => .error e
    | .ok (s, L, ks) => .ok (s, L, .node l ks)
/-- The nodes one after another: `for n in processor.follow_language(node)`, L246. -/
def notesL (pp : Langs) (st : Settings) (s : RelState) (L : Str) : List Doc → Py (RelState × Str × List Doc)
  | [] => .ok (s, L, [])
  | k :: ks => match notes pp st s L k with
    | .error e => .error e
    | .ok (s, L, k) => match notesL pp st s L ks with
      | .error e => .error e
      | .ok (s, L, ks) => .ok (s, L, k :: ks)
end

/-- The start pitch as a node (`rel.append(processor.pitchable(last_pitch, lily.Pitch))`, L229). -/
def startNode (n : Note) : Doc := .node (.lab (.note true n.node none)) []

/-- `_make_relative_internal(node)`, L220-265: the new `\relative` node with the start pitch and the node in it. -/
def make (pp : Langs) (st : Settings) (L : Str) : Doc → Py (Str × Doc)
  | .node l ks => match notesL pp st {} L ks with
    | .error e => .error e
    | .ok (s, L, ks) => .ok (L, .node (.lab .relative) (s.start.toList.map startNode ++ [.node l ks]))

/-- The range at a node (`Range._Level`, `quickly/node.py` L1286-1298): the trails from this node on.  No start trail and an empty one are
the same. -/
structure Rng where
  st : Path := []
  en : Option Path := none

/-- The attribute `start`, L1295. -/
def Rng.start (r : Rng) : ℕ := r.st.head?.getD 0

/-- The attribute `end` of a level for a node with `len` children, L1296. -/
def Rng.stop (r : Rng) (len : ℕ) : ℤ :=
  match r.en with
  | none => (len : ℤ) - 1
  | some [] => -1
  | some (i :: _) => i

/-- `_Level.child()`, `quickly/node.py` L1317-1330. -/
def Rng.child (r : Rng) (len i : ℕ) : Rng where
  st := if i = r.start then r.st.tail else []
  en := match r.en with
    | none => none
    | some e => if (i : ℤ) = r.stop len then some e.tail else none

/-- The loop of `_Level.end_in_range`, `quickly/node.py` L1340-1344. -/
def endLoop : Doc → Path → Bool
  | n, [] => n.kids.isEmpty
  | n, i :: e =>
    if (i : ℤ) < (n.kids.length : ℤ) - 1 then false
    else match n.kids[i]? with
      | some c => endLoop c e
      | none => false

/-- `_Level.end_in_range()`, `quickly/node.py` L1336-1344. -/
def endIn (d : Doc) : Option Path → Bool
  | none => true
  | some e => endLoop d e

/-- `start_in_range()` (`quickly/node.py` L1332-1334) and `end_in_range()`, for the level of the node. -/
def Rng.whole (r : Rng) (d : Doc) : Bool := r.st.all (· == 0) && endIn d r.en

/-- `Range.in_range()`, `quickly/node.py` L1038-1046, when the current node is the child `d` with index `i`. -/
def Rng.inRange (r : Rng) (len i : ℕ) (d : Doc) : Bool :=
  ((r.start : ℤ) < i ∧ (i : ℤ) < r.stop len) || (r.child len i).whole d

mutual
/-- What `abs2rel()` does with a node that it comes to, L195-204: `r` is the range in the node, `all` says whether it is
completely in the range, `L` is the language of the processor. -/
def edit (pp : Langs) (st : Settings) (r : Rng) (all : Bool) (L : Str) : Doc → Py (Str × Doc)
  | .node .list ks =>
    if ks.any Doc.isNote && all then make pp st L (.node .list ks)
    else match editL pp st r ks.length 0 L ks with
      | .error e => .error e
      | .ok (L, ks) => .ok (L, .node .list ks)
  | .node (.lab .relative) ks => .ok (L, .node (.lab .relative) ks)
  | .node (.lab .chordmode) ks => make pp st L (.node (.lab .chordmode) ks)
  | .node l ks => match editL pp st r ks.length 0 L ks with
    | .error e => .error e
    | .ok (L, ks) => .ok (L, .node l ks)
/-- The children of a node (it has `len`) from index `i` on: `r.instances_of(...)`, L197, goes through those that are in the range
(`Range.descendants`, `quickly/node.py` L1213-1237; `_Level.__next__`, L1302-1307). -/
def editL (pp : Langs) (st : Settings) (r : Rng) (len i : ℕ) (L : Str) : List Doc → Py (Str × List Doc)
  | [] => .ok (L, [])
  | k :: ks =>
    match (if r.start ≤ i ∧ (i : ℤ) ≤ r.stop len then edit pp st (r.child len i) (r.inRange len i k) L k else .ok (L, k)) with
    | .error e => .error e
    | .ok (L, k) => match editL pp st r len (i + 1) L ks with
      | .error e => .error e
      | .ok (L, ks) => .ok (L, k :: ks)
end

/-- `Abs2rel.edit_range(r)`, L189-205, with `root` the ancestor of the range. -/
def editRange (pp : Langs) (st : Settings) (r : Rng) (L : Str) : Doc → Py Doc
  | .node l ks => match editL pp st r ks.length 0 L ks with
    | .error e => .error e
    | .ok (_, ks) => .ok (.node l ks)

end Quickly.Abs2rel
