import Verif.Rhythm.Model

/-! # What rhythms mean -/

namespace Quickly.Rhythm.Spec

mutual
/-- How LilyPond reads durations: a note, rest, chord or lyric without a duration has the
duration of the previous one (`p`); a `\skip` has its own duration and does not count as previous
one.  Gives the durations of the durables (with their identity), not of those that are inside
another durable (the notes of a chord), and the duration that counts for what follows. -/
def heard (p : D) : Mus → List (ℕ × D) × D
  | .node l cs =>
    if l.kind.sets then ([(l.id, l.dur.getD p)], l.dur.getD p)
    else
      let (hs, p') := heardL p cs
      (if l.kind = .skip then (l.dur.toList.map fun d => (l.id, d)) ++ hs else hs, p')
/-- The durations of the durables in a list of nodes. -/
def heardL (p : D) : List Mus → List (ℕ × D) × D
  | [] => ([], p)
  | c :: cs =>
    let (h1, p1) := heard p c
    let (h2, p2) := heardL p1 cs
    (h1 ++ h2, p2)
end

/-- The durations of a document; the first ones are quarter notes. -/
def durations (doc : List Mus) : List (ℕ × D) := (heardL (1/4, 1) doc).1

mutual
/-- All nodes in document order, each with the type of its right sibling, and whether it is
inside a durable. -/
def nodes (inside : Bool) (right : Option Kind) : Mus → List (Label × Option Kind × Bool)
  | .node l cs => (l, right, inside) :: nodesL (inside || l.kind.sets) cs
/-- All nodes of a list of siblings. -/
def nodesL (inside : Bool) : List Mus → List (Label × Option Kind × Bool)
  | [] => []
  | c :: cs => nodes inside (cs.head?.map (·.label.kind)) c ++ nodesL inside cs
end

/-- The nodes of a document. -/
def allNodes (doc : List Mus) : List (Label × Option Kind × Bool) := nodesL false doc

/-- Only durables that are not inside another durable have a duration. -/
def Plain (doc : List Mus) : Prop :=
  ∀ x ∈ allNodes doc, x.2.2 = true → x.1.kind.durable = true → x.1.dur = none

/-- The range that starts with node number `a` does not start inside a durable. -/
def StartsOutside (a : ℕ) (doc : List Mus) : Prop :=
  ∀ x, (allNodes doc)[a]? = some x → x.2.2 = false

/-- The durables in the range, with the type of their right sibling. -/
def durables (a b : ℕ) (doc : List Mus) : List (Label × Option Kind) :=
  (((allNodes doc).take b).drop a).filterMap fun x =>
    if x.1.isDurable then some (x.1, x.2.1) else none

/-- The right sibling shows nothing but a duration. -/
def OnlyDuration : Option Kind → Prop
  | some .unpitched => True
  | some (.lyricItem visible) => visible = false
  | _ => False

/-- The duration has to stay: it is required, or (without articulations in between) the duration
of the right sibling would be taken for that of this node. -/
def MustStay (l : Label) (right : Option Kind) : Prop :=
  l.kind.required = true ∨ (l.art = false ∧ OnlyDuration right)

end Quickly.Rhythm.Spec
