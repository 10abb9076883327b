import Verif.Spanner.Model
import Verif.Node.Spec

/-!
# What is the other end of a spanner
-/

namespace Quickly.Spanner.Spec

open Quickly.Node Quickly.Node.Spec

/-- The node at `u` is a place that a search does not leave: an assignment, a `\new`, a document
or a `\score` (also one in markup). -/
def Border (t : Tree Val) (u : Path) : Prop :=
  ∃ n, t.get? u = some n ∧ n.val ∈ [.assignment, .new, .document, .score, .markupScore]

/-- `u` is the nearest border around `p` (`none`: there is none). -/
def Scope (t : Tree Val) (p : Path) : Option Path → Prop
  | some u => Above u p ∧ Border t u ∧ ∀ v, Above v p → Border t v → v = u ∨ Above v u
  | none => ∀ v, Above v p → ¬ Border t v

/-- The node at `p` is in a `\=`. -/
def Within (t : Tree Val) (p : Path) : Prop :=
  ∃ q i u, p = q ++ [i] ∧ t.get? q = some u ∧ u.val = .spannerId

/-- The node at `p` is in a `\=`, just after the id `x`. -/
def HasId (t : Tree Val) (p : Path) (x : Tree Val) : Prop :=
  ∃ q i u, p = q ++ [i + 1] ∧ t.get? q = some u ∧ u.val = .spannerId ∧ u.children[i]? = some x

/-- Both have an equal id, or both have none. -/
def SameId (t : Tree Val) (p q : Path) : Prop :=
  (∃ x, HasId t p x ∧ HasId t q x) ∨ (¬ Within t p ∧ ¬ Within t q)

/-- The direction to search in: a start looks ahead, a stop looks back. -/
def Toward (stop : Bool) (p q : Path) : Prop := if stop then Left q p else Left p q

/-- `m` could be the other end of the spanner of class `k` at `p`: a spanner of the same class and id
that is the opposite, in the right direction, inside the nearest border. -/
def Candidate (t : Tree Val) (p : Path) (k : ℕ) (stop : Bool) (m : Item Val) : Prop :=
  NodeOf t m ∧ m.2.val = .spanner k (!stop) ∧ SameId t p m.1 ∧ Toward stop p m.1 ∧
    ∀ u, Scope t p (some u) → Above u m.1

/-- `r` is the nearest candidate in the direction of the search (none if there is no candidate). -/
def Nearest (t : Tree Val) (p : Path) (k : ℕ) (stop : Bool) : Option (Item Val) → Prop
  | some m => Candidate t p k stop m ∧
      ∀ m', Candidate t p k stop m' → m' = m ∨ Order stop m.1 m'.1
  | none => ∀ m, ¬ Candidate t p k stop m

/-- The nodes that a search from `p` passes before it comes to `m`. -/
def Passed (t : Tree Val) (p : Path) (stop : Bool) (m n : Item Val) : Prop :=
  NodeOf t n ∧ Toward stop p n.1 ∧ (∀ u, Scope t p (some u) → Above u n.1) ∧ Order stop n.1 m.1

/-- Spanners have no child nodes. -/
def Leaves (t : Tree Val) : Prop :=
  ∀ m, NodeOf t m → ∀ k s, m.2.val = .spanner k s → m.2.children = []

/-- A spanner in a `\=` comes after the id. -/
def Ids (t : Tree Val) : Prop :=
  ∀ m, NodeOf t m → ∀ k s, m.2.val = .spanner k s → Within t m.1 → ∃ x, HasId t m.1 x

/-- The one of `p` and `m` that is the start, then the one that is the stop, with `n` between. -/
def Between (stop : Bool) (p m n : Path) : Prop :=
  if stop then Left m n ∧ Left n p else Left p n ∧ Left n m

end Quickly.Spanner.Spec
