import Verif.RhythmTime.Spec

/-!
# What is left of music without the durations, and the durations of its nodes
-/

namespace Quickly.RhythmEdits.Spec

open Quickly.Node Quickly.Signature Quickly.Length Quickly.RhythmTime.Spec

mutual
/-- A node without the Durations in it. -/
def strip : Nd → Nd
  | .node l cs => .node l (stripL cs)
/-- A list of nodes without the Durations. -/
def stripL : List Nd → List Nd
  | [] => []
  | c :: cs => if c.val.1 = .Duration then stripL cs else strip c :: stripL cs
end

mutual
/-- The Durations of the nodes that can have one, in document order. -/
def owned : Nd → List (List Nd)
  | .node l cs => (if l.1 ∈ timed then [durs (.node l cs)] else []) ++ ownedL cs
/-- The Durations of the nodes of a list. -/
def ownedL : List Nd → List (List Nd)
  | [] => []
  | c :: cs => if c.val.1 = .Duration then ownedL cs else owned c ++ ownedL cs
end

/-- In a duration there are only a scaling and comments. -/
def Written (doc : List Nd) : Prop :=
  ∀ x ∈ nodesL false doc, x.2.val.1 = .Duration → ∀ y ∈ x.2.children, y.val.1 ∈ .DurationScaling :: Length.Spec.comments ∧ y.children = []

/-- A Duration does not follow a durable in a list of siblings. -/
def Apart : List Nd → Prop
  | n :: d :: cs => (n.val.1 = .Skip ∨ n.val.1 ∈ sounding → d.val.1 ≠ .Duration) ∧ Apart (d :: cs)
  | _ => True

/-- A document as it is read or built with the constructors: a node has at most one Duration, which has at most one scaling,
and a Duration belongs to the node it is in. -/
structure Regular (doc : List Nd) : Prop where
  one : ∀ x ∈ nodesL false doc, (durs x.2).length ≤ 1
  written : ∀ x ∈ nodesL false doc, x.2.val.1 = .Duration → WrittenDuration x.2
  apart : ∀ x ∈ nodesL false doc, Apart x.2.children
  top : Apart doc

/-- The nodes that can get a Duration, without the abstract base class. -/
def durables : List Cls := .Skip :: .RestType :: .Chord :: Length.Spec.events

/-- What is written before the duration of a node of the class: `<c e>4`, `cis'!=4`, `"text"4`. -/
def front : Cls → List Cls
  | .Chord => [.ChordBody]
  | .Note | .PitchedRest => [.Octave, .Accidental, .OctCheck]
  | .LyricItem => [.Scheme, .String, .Symbol, .Markup]
  | _ => []

/-- The place of a child of class `k`: before the duration (0), the duration (1), or after it (2): articulations,
comments. -/
def rank (c k : Cls) : ℕ := if (front c).any fun f => isSub 5 k f then 0 else if k = .Duration then 1 else 2

/-- The children of a node of the class are in the order in which they have to be written. -/
def InOrder (c : Cls) (cs : List Nd) : Prop := (cs.map fun x => x.val.1).Pairwise fun j k => rank c j ≤ rank c k

mutual
/-- All nodes have their duration at the right place; there is no music in a Duration. -/
def Placed : Nd → Prop
  | .node l cs => (l.1 ∈ durables → InOrder l.1 cs) ∧ PlacedL cs
/-- The same for a list of nodes. -/
def PlacedL : List Nd → Prop
  | [] => True
  | c :: cs => (c.val.1 = .Duration ∨ Placed c) ∧ PlacedL cs
end

/-- A regular document in which the durations are where they have to be written, and there are no nodes of the abstract base
class of the durables. -/
structure Orderly (doc : List Nd) : Prop extends Regular doc where
  placed : ∀ x ∈ nodesL false doc, x.2.val.1 ∈ durables → InOrder x.2.val.1 x.2.children
  concrete : ∀ x ∈ nodesL false doc, x.2.val.1 ≠ .Durable

end Quickly.RhythmEdits.Spec
