import Verif.Group.Model

/-! # What grouping should do -/

namespace Quickly.Group.Spec

variable {α : Type}

/-- All nodes there are, in order; the List around the parts of a name is left out. -/
def contents : Node α → List (Node α)
  | .list items => items.map .other
  | n => [n]

/-- The same for what is yielded. -/
def outContents : Out α → List (Node α)
  | .node n => contents n
  | .assignList items rest => items.map .other ++ rest.flatMap contents
  | .assignName first rest => contents first ++ rest.flatMap contents

/-- Only comments. -/
def Comments (ns : List (Node α)) : Prop := ∀ n ∈ ns, ∃ i, n = .comment i

/-- A node that can be the name of a variable. -/
def Named (n : Node α) : Prop := (∃ is, n = .list is) ∨ (∃ i, n = .symbol i) ∨ ∃ i, n = .string i

/-- Not a comment. -/
def NoComment (n : Node α) : Prop := ∀ i, n ≠ .comment i

/-- The assignment for a name, with the nodes after it. -/
def makeAssignment (name : Node α) (rest : List (Node α)) : Out α :=
  match name with
  | .list items => .assignList items rest
  | n => .assignName n rest

/-- A stream is at rest if the last node that is not a comment is no name and no equal sign. -/
def AtRest (ns : List (Node α)) : Prop :=
  Comments ns ∨ ∃ xs i cs, ns = xs ++ .other i :: cs ∧ Comments cs

/-- The contents of lyric nodes. -/
def lcontents : LNode α → List α
  | .unpitched cs => cs
  | .lyric i => [i]
  | .other i => [i]

/-- The same for what is yielded. -/
def loutContents : LOut α → List α
  | .item cs => cs
  | .node i => [i]

end Quickly.Group.Spec
