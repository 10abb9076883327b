import Verif.Length.Spec

/-!
# When music takes place

The time of a node of a document, and which documents are as a user writes them.
-/

namespace Quickly.RhythmTime.Spec

open Quickly.Node Quickly.Signature Quickly.Length Quickly.Length.Spec

/-- The durables that determine the duration of the next one: all but `\skip`.  The first two are abstract base classes. -/
def sounding : List Cls := .Durable :: .RestType :: .Chord :: events

/-- The nodes that can have a duration: the first one is an abstract base class. -/
def timed : List Cls := .HandleDuration :: .Skip :: .After :: .Tempo :: .Partial :: .Tuplet :: sounding

mutual
/-- A node and its descendants in document order, each with whether it is in a durable. -/
def nodes (inside : Bool) : Nd → List (Bool × Nd)
  | .node l cs => (inside, .node l cs) :: nodesL (inside || decide (l.1 ∈ sounding)) cs
/-- The nodes of a list of siblings. -/
def nodesL (inside : Bool) : List Nd → List (Bool × Nd)
  | [] => []
  | c :: cs => nodes inside c ++ nodesL inside cs
end

/-- The Durations of a node. -/
def durs (n : Nd) : List Nd := n.children.filter fun c => decide (c.val.1 = .Duration)

/-- A duration as it can be written: with at most one scaling, and comments. -/
def WrittenDuration (d : Nd) : Prop :=
  (∀ x ∈ d.children, x.val.1 ∈ .DurationScaling :: comments ∧ x.children = []) ∧
    (d.children.filter fun x => decide (x.val.1 = .DurationScaling)).length ≤ 1

/-- A document as it can be written: a node has at most one duration, and there are no durations in chords, or other
notes in notes (music in the markup of a note). -/
structure Normal (doc : List Nd) : Prop where
  one : ∀ x ∈ nodesL false doc, (durs x.2).length ≤ 1
  written : ∀ x ∈ nodesL false doc, x.2.val.1 = .Duration → WrittenDuration x.2
  plain : ∀ x ∈ nodesL false doc, x.1 = true → x.2.val.1 ∈ sounding → durs x.2 = []

/-- The first node of the range is not in a note or chord. -/
def StartsOutside (a : ℕ) (doc : List Nd) : Prop :=
  ∀ x, ((nodesL false doc).filter fun x => decide (x.2.val.1 ∈ timed))[a]? = some x → x.1 = false

/-- The first note, rest or chord has a duration; the default duration of a document cannot be changed by an edit. -/
def FirstWritten (doc : List Nd) : Prop :=
  ∀ x, (nodesL false doc).find? (fun x => decide (x.2.val.1 ∈ sounding)) = some x → durs x.2 ≠ []

/-- The number of nodes that can have a duration. -/
def timedCount (doc : List Nd) : ℕ := ((nodesL false doc).filter fun x => decide (x.2.val.1 ∈ timed)).length

/-- All durations in the document satisfy a condition. -/
def EveryDuration (doc : List Nd) (ok : D → Prop) : Prop :=
  ∀ x ∈ nodesL false doc, x.2.val.1 ∈ timed → ∀ d, durationScaling x.2 = some d → ok d

/-- The whole document for the `Time` model; a Document is not music. -/
def music (doc : List Nd) : Py Time.Mus := (toMusL (some .Document) [] doc).map (.node .other)

/-- The variables that are known in the toplevel node with this number. -/
def assigned (doc : List Nd) (i : ℕ) : Py Time.Env := toEnv (assignments [] (doc.take i))

/-- `Time.length(node)` for the node at a path in the document. -/
def lengthAt (doc : List Nd) (path : List ℕ) : Py ℚ :=
  match music doc, assigned doc (path.headD 0) with
  | .error e, _ => .error e
  | .ok _, .error e => .error e
  | .ok m, .ok env => Time.lengthAt (Time.remoteLength env) m path

/-- `Time.position(node, include)`: the path of the outermost music the node is in, and the time in it. -/
def positionAt (doc : List Nd) (path : List ℕ) (incl : Bool) : Py (List ℕ × ℚ) :=
  match music doc, assigned doc (path.headD 0) with
  | .error e, _ => .error e
  | .ok _, .error e => .error e
  | .ok m, .ok env => Time.position (Time.remoteLength env) m path incl

/-- `Time.duration(start_node, end_node)`. -/
def durationBetween (doc : List Nd) (start stop : List ℕ) : Py (Option (List ℕ × ℚ)) :=
  match music doc, assigned doc (start.headD 0) with
  | .error e, _ => .error e
  | .ok _, .error e => .error e
  | .ok m, .ok env => Time.duration (Time.remoteLength env) m start stop

/-- The path leads to a node that is not in a note or chord, a `\skip` with a duration, or a Duration. -/
def Outside : List Nd → List ℕ → Prop
  | cs, i :: j :: path => ∀ n, cs[i]? = some n → n.val.1 ∉ .Duration :: sounding ∧ (n.val.1 = .Skip → durs n = []) ∧
      Outside n.children (j :: path)
  | _, _ => True

end Quickly.RhythmTime.Spec
