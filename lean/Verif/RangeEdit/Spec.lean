import Verif.RangeEdit.Model

/-!
# What changing a tree through a range should do
-/

namespace Quickly.RangeEdit.Spec

open Quickly.RangeEdit

variable {β : Type}

/-- Going on with the iteration, these nodes come, and then it ends. -/
inductive Yields : Level β → List β → Prop where
  | stop {l} : l.next = .ok none → Yields l []
  | node {l l' x xs} : l.next = .ok (some (x, l')) → Yields l' xs → Yields l (x :: xs)

/-- Going on with the iteration raises an exception, after these nodes. -/
inductive Raises : Level β → List β → PyErr → Prop where
  | now {l e} : l.next = .error e → Raises l [] e
  | later {l l' x xs e} : l.next = .ok (some (x, l')) → Raises l' xs e → Raises l (x :: xs) e

/-- The boundaries and the current index of the level lie in its node: what a
new level has, when its trails lead to nodes, and what iterating keeps. -/
structure Valid (l : Level β) : Prop where
  start : 0 ≤ l.start
  stop : -1 ≤ l.stop
  stop_lt : l.stop < l.nodes.length
  index : -1 ≤ l.index
  index_lt : l.index < l.nodes.length

/-- The level lies on the start trail and `start` is the index the trail has here. -/
def OnStart (l : Level β) : Prop := ∃ s, l.st = some s ∧ s[l.depth]? = some l.start

/-- The same for the end trail. -/
def OnEnd (l : Level β) : Prop := ∃ s, l.en = some s ∧ s[l.depth]? = some l.stop

/-- Replace the items from `a` to `b` by others. -/
def splice (xs : List β) (a b : ℕ) (new : List β) : List β := xs.take a ++ new ++ xs.drop b

end Quickly.RangeEdit.Spec
