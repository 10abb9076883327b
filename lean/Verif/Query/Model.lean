import Verif.Node.Model

/-!
# Model of the query operators of nodes, `quickly/node.py` L51-103, L125-146

`node / cls`, `node // cls`, `node << cls`, `node > cls`, `node < cls`, `node ^ cls` and
`node.instances_of(cls)`.
-/

namespace Quickly.Query

open Quickly.Node

variable {α κ : Type}

/-- What the code knows of a node besides its place: its class, which classes that
inherits from (itself included), and `body_equals` for two nodes of a class. -/
structure Env (α κ : Type) where
  cls : α → κ
  isSub : κ → κ → Bool
  bodyEquals : α → α → Bool

/-- The argument of an operator: a node, a class or a tuple of classes (a class is
the tuple of one; nested tuples are flattened), or something else. -/
inductive Arg (α κ : Type) where
  | node (other : α)
  | classes (cs : List κ)
  | other

/-- The predicate of `_get_predicate_iterator`, L72-77; none is NotImplemented. -/
def predicate [DecidableEq κ] (env : Env α κ) : Arg α κ → Option (α → Bool)
  | .node o => some fun v => decide (env.cls v = env.cls o) && env.bodyEquals v o
  | .classes cs => some fun v => cs.any fun c => env.isSub (env.cls v) c
  | .other => none

/-- `filter(predicate, generator)` (or `filterfalse`, with the negated predicate), as the
list of what it yields: the generator is only asked for its next node. -/
inductive Selects {σ : Type} (resume : Resume σ α) (pred : α → Bool) : σ → List (Item α) → Prop
  | done {s} : resume s true = none → Selects resume pred s []
  | yield {s n s' out} : resume s true = some (n, s') → pred n.2.val = true →
      Selects resume pred s' out → Selects resume pred s (n :: out)
  | skip {s n s' out} : resume s true = some (n, s') → pred n.2.val = false →
      Selects resume pred s' out → Selects resume pred s out

/-- The list iterator of the children of a node, for `/` and `^`. -/
def listResume : Resume (List (Item α)) α := fun s _ =>
  match s with
  | n :: s => some (n, s)
  | [] => none

/-- The generator `ancestors()` of the node at a place in the tree `t`, L457-462. -/
def ancResume (t : Tree α) : Resume (List Path) α := fun s _ =>
  match s with
  | p :: s => match t.get? p with
    | some u => some ((p, u), s)
    | none => none
  | [] => none

/-- An operator. -/
inductive Op where
  | div | floordiv | lshift | gt | lt | xor
  deriving DecidableEq

/-- The nodes that `node op arg` yields for the node at `p` of the tree `t`, L80-103. -/
def Yields [DecidableEq κ] (env : Env α κ) (t : Tree α) (p : Path) (n : Tree α) (op : Op) (arg : Arg α κ)
    (out : List (Item α)) : Prop :=
  match predicate env arg with
  | none => False
  | some pred => match op with
    | .lshift => Selects (ancResume t) pred ((Ref.ancestors ⟨0, p⟩).map Ref.path) out
    | .gt => Selects (fwdResume false t none) pred (fwdStart false t none p) out
    | .lt => Selects (fwdResume true t none) pred (fwdStart true t none p) out
    | .div => Selects listResume pred (iterate false (p, n)) out
    | .floordiv => Selects (descResume false) pred (descStart false (p, n)) out
    | .xor => Selects listResume (fun v => !pred v) (iterate false (p, n)) out

/-- `instances_of(cls)`, L137-146. -/
def InstancesOf [DecidableEq κ] (env : Env α κ) (p : Path) (n : Tree α) (cs : List κ) (out : List (Item α)) : Prop :=
  Filters (descResume false) (fun m => cs.any fun c => env.isSub (env.cls m.2.val) c) true (descStart false (p, n)) out

end Quickly.Query
