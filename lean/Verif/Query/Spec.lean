import Verif.Query.Model
import Verif.Node.Spec

/-!
# What the query operators promise
-/

namespace Quickly.Query.Spec

open Quickly.Node Quickly.Node.Spec

variable {α κ : Type}

/-- A node matches the argument: it is an instance of one of the classes, or it
is of the same class as the node that is given, with an equal body. -/
def Matches (env : Env α κ) (v : α) : Arg α κ → Prop
  | .node o => env.cls v = env.cls o ∧ env.bodyEquals v o = true
  | .classes cs => ∃ c ∈ cs, env.isSub (env.cls v) c = true
  | .other => False

/-- Where the operator looks, for the node at `p`: children, descendants, ancestors,
nodes after it, nodes before it. -/
def Place : Op → Path → Path → Prop
  | .div, p, q | .xor, p, q => ∃ k, q = p ++ [k]
  | .floordiv, p, q => Above p q
  | .lshift, p, q => Above q p
  | .gt, p, q => DocBefore p q ∧ ¬ Above p q
  | .lt, p, q => DocBefore q p ∧ ¬ Above q p

/-- The order: document order, except that ancestors come from the parent to the root,
and that `<` goes backward. -/
def InOrder : Op → Path → Path → Prop
  | .lshift, a, b => Above b a
  | .lt, a, b => BackBefore a b
  | _, a, b => DocBefore a b

/-- Which nodes are selected. -/
def Selected (env : Env α κ) (op : Op) (arg : Arg α κ) (v : α) : Prop :=
  if op = .xor then ¬ Matches env v arg else Matches env v arg

end Quickly.Query.Spec
