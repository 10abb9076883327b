import Verif.Node.Model

/-!
# Model of `build_tree`, `quickly/dom/element.py` L983-1047

Nodes are trees; the label holds the class (and everything else) of a node.

* `isa a c` is `isinstance(node, c)` for a node with label `a` and a signature entry `c`
  (a class or a tuple of classes);
* `sigs a` are the signatures of a node, a list of lists; `[]` for the default
  implementation, which returns `()`;
* `gen a` tells whether `signatures()` is a generator, as in all classes that implement it.
  A generator is true in `if signatures:`, also if it yields nothing (`lily.MusicFunction`).
  It is read once; that makes no other difference;
* `ignored a` is `ignore_type and isinstance(node, ignore_type)`;
* `conv p n` is what `p.add_argument(n)` appends: the default implementation (L699-706)
  appends the node itself, some LilyPond elements (`quickly/dom/lily.py` L488, L499, L1245,
  L1269, L1284, L1345, L1685, L2176) append a converted node.

A signature has at least one entry (`s[0]` would fail otherwise); an empty one is dropped
here.  The stack and the list `pending` have their top in front.
-/

namespace Quickly.Build

open Quickly.Node

variable {α κ : Type}

/-- What `build_tree` depends on. -/
structure Env (α κ : Type) where
  isa : α → κ → Bool
  sigs : α → List (List κ)
  gen : α → Bool
  ignored : α → Bool
  conv : Tree α → Tree α → Tree α

/-- `signatures` is true in `if signatures:`, L1037. -/
def Env.asks (e : Env α κ) (a : α) : Bool := !(e.sigs a).isEmpty || e.gen a

/-- `parent.add_argument(node)`. -/
def Env.addArg (e : Env α κ) (p n : Tree α) : Tree α :=
  .node p.val (p.children ++ [e.conv p n])

/-- `[s[1:] for s in signatures if isinstance(node, s[0])]`, L1021. -/
def Env.advance (e : Env α κ) (a : α) (ss : List (List κ)) : List (List κ) :=
  ss.filterMap fun s =>
    match s with
    | [] => none
    | c :: r => if e.isa a c then some r else none

/-- `[s for s in signatures if s]`, L1025. -/
def nonEmpty (ss : List (List κ)) : List (List κ) := ss.filter fun s => !s.isEmpty

/-- A stack entry: node and remaining signatures. -/
abbrev Entry (α κ : Type) := Tree α × List (List κ)

/-- The loop of the inner function `add`, L1009-1034: the stack and the nodes it yields.
`pending` has its top in front, so `reversed(pending)` is `pending`. -/
def Env.addLoop (e : Env α κ) : List (Entry α κ) → List (Tree α) → List (Entry α κ) × List (Tree α)
  | [], pending => ([], pending)
  | st, [] => (st, [])
  | (parent, ss) :: st, node :: pending =>
    if e.ignored node.val then e.addLoop ((e.addArg parent node, ss) :: st) pending
    else if (e.advance node.val ss).isEmpty then e.addLoop st (parent :: node :: pending)
    else if (nonEmpty (e.advance node.val ss)).isEmpty then
      e.addLoop st (e.addArg parent node :: pending)
    else e.addLoop ((e.addArg parent node, nonEmpty (e.advance node.val ss)) :: st) pending
  termination_by st pending => 2 * st.length + pending.length

/-- `[s[1:] for s in signatures if isinstance(c, s[0]) and len(s) > 1]`, L1039-1040. -/
def Env.advance1 (e : Env α κ) (a : α) (ss : List (List κ)) : List (List κ) :=
  nonEmpty (e.advance a ss)

/-- The loop over the existing children, L1038-1042; `none` for `break`. -/
def Env.fit (e : Env α κ) : List (Tree α) → List (List κ) → Option (List (List κ))
  | [], ss => some ss
  | c :: cs, ss =>
    if (e.advance1 c.val ss).isEmpty then none else e.fit cs (e.advance1 c.val ss)

/-- `child_nodes`, L1003-1006. -/
def Env.childNodes (e : Env α κ) (n : Tree α) : List (Tree α) :=
  n.children.filter fun c => !e.ignored c.val

/-- One step of the main loop, L1036-1045. -/
def Env.step (e : Env α κ) (st : List (Entry α κ)) (node : Tree α) :
    List (Entry α κ) × List (Tree α) :=
  if e.asks node.val = false then e.addLoop st [node]
  else
    match e.fit (e.childNodes node) (e.sigs node.val) with
    | some ss => ((node, ss) :: st, [])
    | none => e.addLoop st [node]

/-- The stack after the loop is not longer (used for termination only). -/
theorem Env.addLoop_length (e : Env α κ) (st : List (Entry α κ)) (pending : List (Tree α)) :
    (e.addLoop st pending).1.length ≤ st.length := by
  induction st, pending using Env.addLoop.induct e with
  | case1 pending => rw [Env.addLoop]; exact Nat.le_refl _
  | case2 st h => rw [Env.addLoop]; exact Nat.le_refl _; exact h
  | case3 parent ss st node pending h ih =>
    rw [Env.addLoop, if_pos h]; simpa using ih
  | case4 parent ss st node pending h1 h2 ih =>
    rw [Env.addLoop, if_neg h1, if_pos h2]; simp only [List.length_cons]; omega
  | case5 parent ss st node pending h1 h2 h3 ih =>
    rw [Env.addLoop, if_neg h1, if_neg h2, if_pos h3]; simp only [List.length_cons]; omega
  | case6 parent ss st node pending h1 h2 h3 ih =>
    rw [Env.addLoop, if_neg h1, if_neg h2, if_neg h3]; simpa using ih

/-- The last loop, L1047-1049. -/
def Env.finish (e : Env α κ) : List (Entry α κ) → List (Tree α)
  | [] => []
  | (n, _) :: st => (e.addLoop st [n]).2 ++ e.finish (e.addLoop st [n]).1
  termination_by st => st.length
  decreasing_by
    have := e.addLoop_length st [n]
    simp only [List.length_cons]; omega

/-- The main loop, with the stack. -/
def Env.main (e : Env α κ) : List (Entry α κ) → List (Tree α) → List (Tree α)
  | st, [] => e.finish st
  | st, n :: nodes => (e.step st n).2 ++ e.main (e.step st n).1 nodes

/-- `build_tree(nodes, ignore_type)`: the nodes it yields. -/
def Env.buildTree (e : Env α κ) (nodes : List (Tree α)) : List (Tree α) := e.main [] nodes

end Quickly.Build
