import Verif.Node.Model

/-!
# Model of `Spanner.find_parallel`, `quickly/dom/lily.py` L684-755

The tree and its generators are those of `Verif/Node/Model.lean`.
-/

namespace Quickly.Spanner

open Quickly.Node

/-- What `find_parallel` looks at in a node: its class and its head.  A spanner has a class
`k` (Slur, PhrasingSlur, Beam, Ligature, TextSpanner, TrillSpanner, Melisma, `quickly/dom/lily.py`
L1943-1997) and as head one of the two values of its mapping, "start" or "stop" (L696-698; that a
head is one of the values is property C45).  Other classes are numbered; the head is
only compared for nodes that are part of a spanner id. -/
inductive Val where
  | spanner (k : ℕ) (stop : Bool)
  | spannerId
  | assignment
  | new
  | document
  | score
  | markupScore
  | other (cls : ℕ) (head : String)
  deriving DecidableEq

/-- `isinstance(n, (Assignment, New, Document, Score))`, L736; MarkupScore inherits from Score
(L2456); Context, which New inherits from (L1177), is not one of them. -/
def isBoundary : Val → Bool
  | .assignment | .new | .document | .score | .markupScore => true
  | _ => false

/-- The ancestor at a place is a boundary. -/
def boundaryAt (t : Tree Val) (q : Path) : Bool :=
  match t.get? q with
  | some u => isBoundary u.val
  | none => false

/-- `upto = next(self << (Assignment, New, Document, Score), None)`, L736: the nearest of
the ancestors. -/
def upto (t : Tree Val) (p : Path) : Option Path :=
  ((Ref.ancestors ⟨0, p⟩).map Ref.path).find? (boundaryAt t)

/-- `n.left_sibling()`, `quickly/node.py` L517-522. -/
def leftSibling (t : Tree Val) (p : Path) : Option (Tree Val) :=
  match p.getLast? with
  | none => none
  | some i => match t.get? p.dropLast with
    | none => none
    | some par => if i = 0 then none else par.children[i - 1]?

/-- `isinstance(n.parent, SpannerId)`, L743, L745, L747. -/
def inSpannerId (t : Tree Val) (p : Path) : Bool :=
  match parent p with
  | none => false
  | some q => match t.get? q with
    | some u => decide (u.val = .spannerId)
    | none => false

/-- `spanner_id = self.left_sibling() if isinstance(self.parent, SpannerId) else None`, L743. -/
def spannerIdOf (t : Tree Val) (p : Path) : Option (Tree Val) :=
  if inSpannerId t p then leftSibling t p else none

/-- `a.equals(b)`, `quickly/node.py` L362-376 with `body_equals` of `quickly/dom/element.py` L906-908;
`b` may be None, whose type differs. -/
def equalsId (a : Tree Val) : Option (Tree Val) → Bool
  | some b => a.equals (fun v w => decide (v = w)) b
  | none => false

/-- `spanner_ok(n)`, L744-747; a node is always true (`quickly/node.py` L230-232). -/
def spannerOk (t : Tree Val) (p q : Path) : Bool :=
  match spannerIdOf t p with
  | some i => inSpannerId t q && equalsId i (leftSibling t q)
  | none => !inSpannerId t q

/-- `parallel(n)`, L740-741: `type(n) is cls and n.head != head`. -/
def parallel : Val → Val → Bool
  | .spanner k s, .spanner k' s' => decide (k' = k) && decide (s' ≠ s)
  | _, _ => false

/-- The predicate of the filter, L749. -/
def test (t : Tree Val) (p : Path) (v : Val) (n : Item Val) : Bool :=
  parallel v n.2.val && spannerOk t p n.1

/-- `for n in filter(pred, islice(nodes, limit)): return n`, L738-750: the generator is asked for a next node
until the predicate is true for one, it ends, or (with a limit) that many were taken. -/
inductive First {σ : Type} (resume : Resume σ Val) (pred : Item Val → Bool) :
    Option ℕ → σ → Option (Item Val) → Prop
  | limit {s} : First resume pred (some 0) s none
  | done {l s} : l ≠ some 0 → resume s true = none → First resume pred l s none
  | hit {l s n s'} : l ≠ some 0 → resume s true = some (n, s') → pred n = true → First resume pred l s (some n)
  | skip {l s n s' r} : l ≠ some 0 → resume s true = some (n, s') → pred n = false →
      First resume pred (l.map (· - 1)) s' r → First resume pred l s r

/-- `self.head == "start"`, L737. -/
def isStart : Val → Bool
  | .spanner _ stop => !stop
  | _ => false

/-- `if limit`, L738: 0 is no limit. -/
def limitArg (limit : ℕ) : Option ℕ := if limit = 0 then none else some limit

/-- `n.find_parallel(limit)` of the spanner `n` at `p` in the tree `t`, L700-750: `r` is what it returns.
Simplified: `limit` is not negative (`islice` would raise ValueError). -/
def FindParallel (t : Tree Val) (p : Path) (n : Tree Val) (limit : ℕ) (r : Option (Item Val)) : Prop :=
  if isStart n.val then
    First (fwdResume false t (upto t p)) (test t p n.val) (limitArg limit) (fwdStart false t (upto t p) p) r
  else
    First (fwdResume true t (upto t p)) (test t p n.val) (limitArg limit) (fwdStart true t (upto t p) p) r

end Quickly.Spanner
