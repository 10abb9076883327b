import Verif.Find.Model
import Verif.Node.Spec

/-!
# Where the nodes of a tree are in the text
-/

namespace Quickly.Find.Spec

open Quickly.Node Quickly.Node.Spec

/-- The tokens a node and its descendants were read from, in document order. -/
def toks : Tree Org → List Tok
  | .node e cs => e.head ++ go cs ++ e.tail
where
  /-- The tokens of the children. -/
  go : List (Tree Org) → List Tok
    | [] => []
    | c :: cs => toks c ++ go cs

/-- The nodes' positions are in document order: no token is empty, a token comes in the text after
the tokens before it; and a node with a tail origin has a head origin. -/
structure Ordered (t : Tree Org) : Prop where
  nonempty : ∀ k ∈ toks t, k.pos < k.stop
  inOrder : (toks t).Pairwise fun a b => a.stop ≤ b.pos
  headed : ∀ n, NodeOf t n → n.2.val.tail ≠ [] → n.2.val.head ≠ []

/-- The text of the node starts at `p`. -/
def Starts (t : Tree Org) (p : ℤ) : Prop := ∃ k ks, toks t = k :: ks ∧ k.pos = p

/-- The text of the node ends at `e`. -/
def Ends (t : Tree Org) (e : ℤ) : Prop := ∃ ks k, toks t = ks ++ [k] ∧ k.stop = e

/-- The text of the node contains the range from `p` to `e`, its boundaries included. It
touches position `p` if it contains the range from `p` to `p`. -/
def Contains (p e : ℤ) (t : Tree Org) : Prop := ∃ a b, Starts t a ∧ Ends t b ∧ a ≤ p ∧ e ≤ b

/-- `n` is a descendant of the root. -/
def Descendant (t : Tree Org) (n : Item Org) : Prop := NodeOf t n ∧ n.1 ≠ []

end Quickly.Find.Spec
