import Verif.Cursor.Model
import Verif.Find.Spec

/-! # What is selected -/

namespace Quickly.Cursor.Spec

open Quickly.Node Quickly.Node.Spec Quickly.Find Quickly.Find.Spec

/-- The text of the node is in the selection. -/
def Selected (c : Cursor) (n : Item Org) : Prop := ∃ p e, Starts n.2 p ∧ Ends n.2 e ∧ c.pos ≤ p ∧ e ≤ c.stop

/-- The node is selected, or a node in it is. -/
def HasSelected (d : Tree Org) (c : Cursor) (n : Item Org) : Prop :=
  ∃ x, NodeOf d x ∧ (x.1 = n.1 ∨ Above n.1 x.1) ∧ Selected c x

/-- The last selected node: all others are to the left of it or in it. -/
def Last (d : Tree Org) (c : Cursor) (b : Item Org) : Prop :=
  Descendant d b ∧ Selected c b ∧ ∀ n, Descendant d n → Selected c n → n = b ∨ Above b.1 n.1 ∨ Left n.1 b.1

/-- The selection does not begin inside a node and go on past its end: a node that has something selected and that ends
in the selection is selected. -/
def CutsNone (d : Tree Org) (c : Cursor) : Prop :=
  ∀ n p e, Descendant d n → HasSelected d c n → Starts n.2 p → Ends n.2 e → e ≤ c.stop → c.pos ≤ p

/-- All that is selected is in one node that begins in the selection. -/
def InOne (d : Tree Org) (c : Cursor) : Prop :=
  ∃ n p, Descendant d n ∧ Starts n.2 p ∧ c.pos ≤ p ∧
    ∀ x, Descendant d x → Selected c x → x.1 = n.1 ∨ Above n.1 x.1

end Quickly.Cursor.Spec
