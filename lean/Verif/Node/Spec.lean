import Verif.Node.Model

/-!
# What the properties of the tree speak about
-/

namespace Quickly.Node.Spec

variable {α : Type}

/-- `p` is the place of a proper ancestor of `q`. -/
def Above (p q : Path) : Prop := ∃ i r, q = p ++ i :: r

/-- `p` is in an earlier branch than `q`: below some common ancestor, the branch
of `p` comes before that of `q`. -/
def Left (p q : Path) : Prop := ∃ c i j r s, p = c ++ i :: r ∧ q = c ++ j :: s ∧ i < j

/-- Document order: an ancestor comes before its descendants, otherwise the
earlier branch comes first. -/
def DocBefore (p q : Path) : Prop := Above p q ∨ Left p q

/-- Backward order: an ancestor comes before its descendants, otherwise the
later branch comes first. -/
def BackBefore (p q : Path) : Prop := Above p q ∨ Left q p

/-- The order of a traversal. -/
def Order (rev : Bool) : Path → Path → Prop := if rev then BackBefore else DocBefore

/-- `n` is a node of the tree `t`. -/
def NodeOf (t : Tree α) (n : Item α) : Prop := t.get? n.1 = some n.2

/-- The nodes that a caller has got up to and including the one at `p`. -/
def upTo (p : Path) : List (Item α) → List (Item α)
  | [] => []
  | n :: ns => if n.1 = p then [n] else n :: upTo p ns

/-- `ns` are exactly the nodes with the property `P`, each once, in the order of the
traversal. -/
def Lists (rev : Bool) (P : Item α → Prop) (ns : List (Item α)) : Prop :=
  ns.Pairwise (fun a b => Order rev a.1 b.1) ∧ ∀ n, n ∈ ns ↔ P n

/-- `q` is `p` or a proper ancestor of it. -/
def AboveOrSelf (q p : Path) : Prop := ∃ r, p = q ++ r

end Quickly.Node.Spec
