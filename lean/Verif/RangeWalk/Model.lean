import Verif.Range.Model
import Verif.Query.Model

/-!
# Model of walking with a range, `quickly/node.py` L80-103, L1088-1100, L1146-1216

What a range does from the node it is at: `forward(upto)`, `backward(upto)`, `children()`, `ancestors()`, and the
query operators `/`, `//`, `<<`, `>`, `<`, `^`. The stack of levels is that of `Range/Model.lean`, the innermost level
first. A node is known by its place in the tree, so that `self.node is upto` compares places.
-/

namespace Quickly.RangeWalk

open Quickly.Node Quickly.NodeRange Quickly.Query

variable {α κ : Type}

/-- The current node of a stack, L962-963. -/
def current : List (Level α) → Option (Item α)
  | l :: _ => l.current
  | [] => none

/-- `leave()`, L1088-1100: what it returns and the stack afterwards. -/
def leave : List (Level α) → ℕ × List (Level α)
  | _ :: m :: ms => ((m :: ms).length, m :: ms)
  | [l] => (0, [{ l with index := none }])
  | [] => (0, [])

/-- `self.node is upto`, L1171, L1191; the argument can be None. -/
def isUpto (upto : Option Path) (ls : List (Level α)) : Bool :=
  match current ls, upto with
  | some n, some u => decide (n.1 = u)
  | _, _ => false

/-- The loop of `forward(upto)` (L1165-1172) and `backward(upto)` (L1185-1192) up to the next yield. -/
def advance (rev : Bool) (upto : Option Path) : List (Level α) → Option (Item α × List (Level α))
  | [] => none
  | l :: ls =>
    match l.step rev with
    | some (n, l) => some (n, l :: ls)
    | none =>
      if (leave (l :: ls)).1 = 0 || isUpto upto (leave (l :: ls)).2 then none else advance rev upto ls

/-- The generators `forward(upto)` and `backward(upto)`, L1154-1192: the node just yielded and the stack. -/
def walkResume (rev : Bool) (upto : Option Path) : Resume (Option (Item α) × List (Level α)) α := fun s ok =>
  match advance rev upto (sent s.1 ok s.2) with
  | some (n, ls) => some (n, (some n, ls))
  | none => none

/-- The generator `children(reverse)`, L1208-1218: the next node, or the stack at the end; the state is whether it has
started, and the stack. -/
def kidsGo (rev : Bool) (s : Bool × List (Level α)) (_ : Bool) : (Item α × (Bool × List (Level α))) ⊕ List (Level α) :=
  match (if s.1 then s.2 else enter s.2) with
  | l :: ls => match l.step rev with
    | some (n, l) => .inl (n, (true, l :: ls))
    | none => .inr (leave (l :: ls)).2
  | [] => .inr []

/-- `children(reverse)` as a generator. -/
def kidsResume (rev : Bool) : Resume (Bool × List (Level α)) α := fun s ok =>
  match kidsGo rev s ok with
  | .inl x => some x
  | .inr _ => none

/-- The generator `ancestors()`, L1194-1206: one node after the other from the stack. At the outermost level, the ancestor
of the range comes when the level has an index, which is then taken away. -/
def upResume : Resume (List (Level α)) α := fun s _ =>
  match s with
  | _ :: m :: ms => match current (m :: ms) with
    | some n => some (n, m :: ms)
    | none => none
  | [l] => match l.index with
    | some _ => some (l.node, [{ l with index := none }])
    | none => none
  | [] => none

/-- The nodes that `range op arg` yields, L80-103, L1146-1152, from a stack. -/
def Yields [DecidableEq κ] (env : Env α κ) (ls : List (Level α)) (op : Op) (arg : Arg α κ) (out : List (Item α)) : Prop :=
  match predicate env arg with
  | none => False
  | some pred => match op with
    | .lshift => Selects upResume pred ls out
    | .gt => Selects (walkResume false none) pred (none, ls) out
    | .lt => Selects (walkResume true none) pred (none, ls) out
    | .div => Selects (kidsResume false) pred (false, ls) out
    | .floordiv => Selects (NodeRange.descResume false) pred ⟨none, none, ls⟩ out
    | .xor => Selects (kidsResume false) (fun v => !pred v) (false, ls) out

end Quickly.RangeWalk
