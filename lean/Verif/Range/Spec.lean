import Verif.Range.Model
import Verif.Node.Spec

/-!
# What the properties of ranges speak about
-/

namespace Quickly.NodeRange.Spec

open Quickly.Node Quickly.Node.Spec

variable {α : Type}

/-- The place `p` is not before the place `q` in document order. -/
def NotBefore (p q : Path) : Prop := p = q ∨ DocBefore q p

/-- `p` is between the start and the end, inclusive; a boundary that is not
given does not restrict. -/
def Within (st en : Option Path) (p : Path) : Prop :=
  (∀ s, st = some s → NotBefore p s) ∧ (∀ e, en = some e → NotBefore e p)

/-- The node at `p` or a node below it is between the start and the end. -/
def Touches (t : Tree α) (st en : Option Path) (p : Path) : Prop :=
  ∃ r n, t.get? (p ++ r) = some n ∧ Within st en (p ++ r)

/-- The trails lead to nodes, and the end is not before the start. -/
def Proper (t : Tree α) (st en : Option Path) : Prop :=
  (∀ s, st = some s → ∃ n, t.get? s = some n) ∧ (∀ e, en = some e → ∃ n, t.get? e = some n) ∧
  ∀ s e, st = some s → en = some e → NotBefore e s

open Classical in
/-- The tree with only the nodes at places with `P`: the root stays, a child that has not `P` is left out
with all below it. The values are copied with `f`. -/
noncomputable def prune (f : α → α) (P : Path → Prop) : Path → Tree α → Tree α
  | p, .node v cs => .node (f v) (kids p 0 cs)
where
  /-- The children of the node at the place, from the index. -/
  kids (p : Path) : ℕ → List (Tree α) → List (Tree α)
    | _, [] => []
    | i, c :: cs => if P (p ++ [i]) then prune f P (p ++ [i]) c :: kids p (i + 1) cs else kids p (i + 1) cs

end Quickly.NodeRange.Spec
