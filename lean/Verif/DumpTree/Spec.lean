import Verif.DumpTree.Model
import Verif.Node.Spec

/-!
# What the property of `dump` speaks about
-/

namespace Quickly.DumpTree.Spec

open Quickly.Node Quickly.Node.Spec

variable {α : Type}

/-- The node at `p` is the last child of its parent. -/
def Last (t : Tree α) (p : Path) : Prop := ∃ q i u, p = q ++ [i] ∧ t.get? q = some u ∧ u.children.length = i + 1

open Classical in
/-- The columns of the line for the node at `b ++ r`, in the dump of the node at `b`: for each ancestor below `b` a bar, or a
gap if that is the last child; and for the node itself a branch, or the last branch if it is the last child. -/
noncomputable def columns (t : Tree α) (bar gap branch lastBranch : Str) (b r : Path) : List Str :=
  (List.range r.length).map fun k =>
    if k + 1 = r.length then (if Last t (b ++ r) then lastBranch else branch)
    else (if Last t (b ++ r.take (k + 1)) then gap else bar)

/-- The tree of what is shown of the nodes. -/
def shown (repr : Tree α → Str) : Tree α → Tree Str
  | .node v cs => .node (repr (.node v cs)) (kids cs)
where
  /-- The children. -/
  kids : List (Tree α) → List (Tree Str)
    | [] => []
    | c :: cs => shown repr c :: kids cs

/-- Every node is shown as one line that begins with `<`; so are all nodes of the library, except an Assignment to a quoted
name that has a newline. -/
def Plain (repr : Tree α → Str) : Prop := ∀ n, '\n' ∉ repr n ∧ (repr n).head? = some '<'

end Quickly.DumpTree.Spec
