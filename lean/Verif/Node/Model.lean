import Verif.Basic
import Mathlib.Data.Nat.Notation

/-!
# Model of `quickly/node.py`, the tree and its generators

A node is identified by its place: the path of indices from the root (what
`trail()` returns).  Identity comparison of nodes (`is`, `in`, `index`, L298-306)
is comparison of places; that a node has one place, which its parent link
agrees with, is property C30.
-/

namespace Quickly.Node

/-- A tree: a node has a value (its class and attributes) and child nodes. -/
inductive Tree (α : Type) where
  | node (val : α) (children : List (Tree α))

variable {α : Type}

/-- The value of the node. -/
def Tree.val : Tree α → α
  | .node v _ => v

/-- The children; `list(node)`. -/
def Tree.children : Tree α → List (Tree α)
  | .node _ c => c

/-- A place in a tree. -/
abbrev Path := List ℕ

/-- A node with its place. -/
abbrev Item (α : Type) := Path × Tree α

/-- Number a list of children as children of the node at `p`, from index `i`. -/
def number (p : Path) : ℕ → List (Tree α) → List (Item α)
  | _, [] => []
  | i, t :: ts => (p ++ [i], t) :: number p (i + 1) ts

/-- `iter(n)`, or `reversed(n)`, `quickly/node.py` L481: the children to go through. -/
def iterate (rev : Bool) (n : Item α) : List (Item α) :=
  if rev then (number n.1 0 n.2.children).reverse else number n.1 0 n.2.children

/-! ## Generators

A generator is a state and a function that resumes it with the value that was
sent (only "is not False" matters, L486): it yields a node and has a new state, or
ends. -/

/-- Resume a generator: `False` is `ok = false`; `next()` and other values are
`ok = true`. -/
abbrev Resume (σ α : Type) := σ → Bool → Option (Item α × σ)

/-- The state of `Node.descendants` between yields, `quickly/node.py` L481-494:
the node just yielded (none before the first), the iterator `gen` and the stack. -/
structure DState (α : Type) where
  pending : Option (Item α)
  gen : List (Item α)
  stack : List (List (Item α))

/-- The `for ... else` of L485-494: the next item of `gen`, or of the iterators
on the stack when it is exhausted. -/
def advance : List (Item α) → List (List (Item α)) → Option (Item α × List (Item α) × List (List (Item α)))
  | n :: gen, stack => some (n, gen, stack)
  | [], g :: stack => advance g stack
  | [], [] => none

/-- What happens when the yield returns, L486-488: the iterator is put on the stack
and that of the yielded node is taken, unless False was sent or it has no children. -/
def push (rev : Bool) (s : DState α) (ok : Bool) : List (Item α) × List (List (Item α)) :=
  match s.pending with
  | some n => if ok && !n.2.children.isEmpty then (iterate rev n, s.gen :: s.stack) else (s.gen, s.stack)
  | none => (s.gen, s.stack)

/-- Resuming `Node.descendants`, `quickly/node.py` L471-494. -/
def descResume (rev : Bool) : Resume (DState α) α := fun s ok =>
  match advance (push rev s ok).1 (push rev s ok).2 with
  | some (n, gen, stack) => some (n, ⟨some n, gen, stack⟩)
  | none => none

/-- The generator `n.descendants(reverse)` before its first `next`. -/
def descStart (rev : Bool) (n : Item α) : DState α := ⟨none, iterate rev n, []⟩

/-- The complete use of a generator by a caller that decides, from all nodes it
got so far, which value to send next: `Runs resume dec ok s hist out` says that
from state `s`, after having got `hist`, sending `ok` and then what `dec` says,
the caller gets `out` until the generator ends. -/
inductive Runs {σ α : Type} (resume : Resume σ α) (dec : List (Item α) → Bool) :
    Bool → σ → List (Item α) → List (Item α) → Prop
  | done {ok s hist} : resume s ok = none → Runs resume dec ok s hist []
  | step {ok s hist n s' out} : resume s ok = some (n, s') →
      Runs resume dec (dec (hist ++ [n])) s' (hist ++ [n]) out → Runs resume dec ok s hist (n :: out)

/-- Iterating over a generator with a for loop: nothing is ever sent. -/
def always : List (Item α) → Bool := fun _ => true

/-- `Common.filter_descendants(predicate, generator)`, `quickly/node.py` L104-123,
as the list of what it yields: after a node for which the predicate is true False
is sent, otherwise `next` is called. -/
inductive Filters {σ α : Type} (resume : Resume σ α) (pred : Item α → Bool) :
    Bool → σ → List (Item α) → Prop
  | done {ok s} : resume s ok = none → Filters resume pred ok s []
  | yield {ok s n s' out} : resume s ok = some (n, s') → pred n = true →
      Filters resume pred false s' out → Filters resume pred ok s (n :: out)
  | skip {ok s n s' out} : resume s ok = some (n, s') → pred n = false →
      Filters resume pred true s' out → Filters resume pred ok s out

/-! ## Places in a tree -/

/-- The subtree at a place. -/
def Tree.get? : Tree α → Path → Option (Tree α)
  | t, [] => some t
  | t, i :: p => match t.children[i]? with
    | some c => c.get? p
    | none => none

/-- `node.parent` (L247-250), as a place; None for the root. -/
def parent (p : Path) : Option Path := if p = [] then none else some p.dropLast

/-- `p.right_siblings()`, `quickly/node.py` L496-501, in the tree `t`. -/
def rightSiblings (t : Tree α) (p : Path) : List (Item α) :=
  match p.getLast? with
  | none => []
  | some i => match t.get? p.dropLast with
    | none => []
    | some par => (number p.dropLast 0 par.children).drop (i + 1)

/-- `p.left_siblings()`, `quickly/node.py` L503-508. -/
def leftSiblings (t : Tree α) (p : Path) : List (Item α) :=
  match p.getLast? with
  | none => []
  | some i => match t.get? p.dropLast with
    | none => []
    | some par => ((number p.dropLast 0 par.children).take i).reverse

/-- The state of `forward` and `backward` between yields, `quickly/node.py`
L534-539: `node`, the siblings still to come, the running `yield from` generator,
and the node just yielded by the generator itself. -/
structure FState (α : Type) where
  pending : Option (Item α)
  inner : Option (DState α)
  sibs : List (Item α)
  node : Path

/-- `right_siblings` for `forward`, `left_siblings` for `backward`. -/
def siblings (rev : Bool) (t : Tree α) (p : Path) : List (Item α) :=
  if rev then leftSiblings t p else rightSiblings t p

/-- Go on with the for loop over the siblings (L536), then with the parent
(L539, L535), until there is a node to yield.  Called with the siblings that are
left of `node`; the loop condition is checked for each next node. -/
def climb (rev : Bool) (t : Tree α) (upto : Option Path) (sibs : List (Item α)) (node : Path) :
    Option (Item α × List (Item α) × Path) :=
  match sibs with
  | n :: sibs => some (n, sibs, node)
  | [] =>
    if h : node = [] then none
    else
      let par := node.dropLast
      if par ≠ [] ∧ upto ≠ some par then climb rev t upto (siblings rev t par) par else none
termination_by node.length
decreasing_by
  have := List.length_pos_iff.mpr h
  simp only [List.length_dropLast]
  omega

/-- The next node that `forward` or `backward` itself yields. -/
def fwdNext (rev : Bool) (t : Tree α) (upto : Option Path) (sibs : List (Item α)) (node : Path) :
    Option (Item α × FState α) :=
  match climb rev t upto sibs node with
  | some (n, sibs, node) => some (n, ⟨some n, none, sibs, node⟩)
  | none => none

/-- Resume the `yield from` generator `d` of L538; when it ends go on with the loop. -/
def fwdInner (rev : Bool) (t : Tree α) (upto : Option Path) (d : DState α) (sibs : List (Item α))
    (node : Path) (ok : Bool) : Option (Item α × FState α) :=
  match descResume rev d ok with
  | some (n, d) => some (n, ⟨none, some d, sibs, node⟩)
  | none => fwdNext rev t upto sibs node

/-- Resuming `forward(upto)` (rev = false) or `backward(upto)` (rev = true),
`quickly/node.py` L524-556. -/
def fwdResume (rev : Bool) (t : Tree α) (upto : Option Path) : Resume (FState α) α := fun s ok =>
  match s.inner with
  | some d => fwdInner rev t upto d s.sibs s.node ok
  | none =>
    match s.pending with
    | some n =>
      if ok && !n.2.children.isEmpty then fwdInner rev t upto (descStart rev n) s.sibs s.node true
      else fwdNext rev t upto s.sibs s.node
    | none => fwdNext rev t upto s.sibs s.node

/-- `p.forward(upto)` before the first `next`: the loop condition L535 is checked. -/
def fwdStart (rev : Bool) (t : Tree α) (upto : Option Path) (p : Path) : FState α :=
  if p ≠ [] ∧ upto ≠ some p then ⟨none, none, siblings rev t p, p⟩ else ⟨none, none, [], []⟩

/-! ## Ancestors

Nodes of different trees are told apart by a root. -/

/-- A node: its root and its place below it. -/
structure Ref where
  root : ℕ
  path : Path
  deriving DecidableEq

/-- `node.parent`, L247-250. -/
def Ref.parent (r : Ref) : Option Ref :=
  if r.path = [] then none else some ⟨r.root, r.path.dropLast⟩

/-- `ancestors()`, `quickly/node.py` L457-462. -/
def Ref.ancestors (r : Ref) : List Ref :=
  if _h : r.path = [] then [] else
    ⟨r.root, r.path.dropLast⟩ :: Ref.ancestors ⟨r.root, r.path.dropLast⟩
termination_by r.path.length
decreasing_by
  have := List.length_pos_iff.mpr _h
  simp only [List.length_dropLast]
  omega

/-- `ancestors_with_index()`, `quickly/node.py` L464-469: `p.index(n)` is the
last index of the place of `n`. -/
def Ref.ancestorsWithIndex (r : Ref) : List (Ref × ℕ) :=
  if h : r.path = [] then [] else
    (⟨r.root, r.path.dropLast⟩, r.path.getLast h) :: Ref.ancestorsWithIndex ⟨r.root, r.path.dropLast⟩
termination_by r.path.length
decreasing_by
  have := List.length_pos_iff.mpr h
  simp only [List.length_dropLast]
  omega

/-- `trail()`, `quickly/node.py` L267-296. -/
def Ref.trail (r : Ref) : List ℕ := (r.ancestorsWithIndex.map Prod.snd).reverse

/-- `root()`, `quickly/node.py` L260-265: the last ancestor, or the node itself. -/
def Ref.rootNode (r : Ref) : Ref := r.ancestors.getLast?.getD r

/-- `depth()`, `quickly/node.py` L558-560. -/
def Ref.depth (r : Ref) : ℕ := r.ancestors.length

/-- The first loop of `common_ancestor`, L409-412: either `other` is found, or
the list of ancestors is complete. -/
def caLoop1 (other : Ref) : List Ref → List Ref → Ref ⊕ List Ref
  | [], acc => .inr acc
  | n :: ns, acc => if n = other then .inl n else caLoop1 other ns (acc ++ [n])

/-- The second loop of `common_ancestor`, L413-415. -/
def caLoop2 (ancestors : List Ref) : List Ref → Option Ref
  | [] => none
  | n :: ns => if n ∈ ancestors then some n else caLoop2 ancestors ns

/-- `common_ancestor(other)`, `quickly/node.py` L399-415. -/
def Ref.commonAncestor (self other : Ref) : Option Ref :=
  if other = self then some self
  else match caLoop1 other self.ancestors [self] with
    | .inl n => some n
    | .inr ancestors => caLoop2 ancestors other.ancestors

/-- The first loop of `common_ancestor_with_trail`, L438-442. -/
def cwLoop1 (other : Ref) : List (Ref × ℕ) → List Ref → List ℕ → (Ref × List ℕ) ⊕ (List Ref × List ℕ)
  | [], anc, trail => .inr (anc, trail)
  | (n, i) :: ns, anc, trail =>
    if n = other then .inl (n, trail ++ [i]) else cwLoop1 other ns (anc ++ [n]) (trail ++ [i])

/-- The second loop of `common_ancestor_with_trail`, L445-454; `trail_self[i::-1]`
is the first `i + 1` indices reversed. -/
def cwLoop2 (self : Ref) (anc : List Ref) (trailSelf : List ℕ) :
    List (Ref × ℕ) → List ℕ → Option (Ref × List ℕ × List ℕ)
  | [], _ => none
  | (n, i) :: ns, trail =>
    let trail := trail ++ [i]
    if n = self then some (n, [], trail.reverse)
    else if n ∈ anc then some (n, (trailSelf.take (anc.idxOf n + 1)).reverse, trail.reverse)
    else cwLoop2 self anc trailSelf ns trail

/-- `common_ancestor_with_trail(other)`, `quickly/node.py` L417-455. -/
def Ref.commonAncestorWithTrail (self other : Ref) : Option (Ref × List ℕ × List ℕ) :=
  if other = self then some (self, [], [])
  else match cwLoop1 other self.ancestorsWithIndex [] [] with
    | .inl (n, trail) => some (n, trail.reverse, [])
    | .inr (anc, trail) => cwLoop2 self anc trail other.ancestorsWithIndex []

/-! ## Height, equality, copies -/

/-- The number of nodes in a list of trees; only used to see that the loops
terminate. -/
def Tree.size : Tree α → ℕ
  | .node _ cs => 1 + go cs
where
  /-- Sum over a list. -/
  go : List (Tree α) → ℕ
    | [] => 0
    | t :: ts => t.size + go ts

/-- The loop of `height()`, `quickly/node.py` L562-578: `gen`, `stack`, `height`. -/
def heightLoop : List (Tree α) → List (List (Tree α)) → ℕ → ℕ
  | .node _ [] :: gen, stack, h => heightLoop gen stack h
  | .node _ (c :: cs) :: gen, stack, h => heightLoop (c :: cs) (gen :: stack) (max h (stack.length + 1))
  | [], g :: stack, h => heightLoop g stack h
  | [], [], h => h
termination_by gen stack _ => (Tree.size.go gen + (stack.map Tree.size.go).sum, stack.length)
decreasing_by
  · apply Prod.Lex.left; simp only [Tree.size.go, Tree.size]; omega
  · apply Prod.Lex.left; simp only [Tree.size.go, Tree.size, List.map_cons, List.sum_cons]; omega
  · simp only [Tree.size.go, List.map_cons, List.sum_cons, List.length_cons, Nat.zero_add]
    apply Prod.Lex.right; omega

/-- `height()`. -/
def Tree.height (t : Tree α) : ℕ := heightLoop [t] [] 0

/-- `equals(other)`, `quickly/node.py` L362-376, with `body` standing for "same
class and body_equals". -/
def Tree.equals (body : α → α → Bool) : Tree α → Tree α → Bool
  | .node v cs, .node w ds => cs.length == ds.length && body v w && all cs ds
where
  /-- `all(a.equals(b) for a, b in zip(self, other))`. -/
  all : List (Tree α) → List (Tree α) → Bool
    | c :: cs, d :: ds => c.equals body d && all cs ds
    | _, _ => true

/-- `copy(with_children)`, `quickly/node.py` L308-316, with `f` what constructing
a new node of the same class makes of the value. -/
def Tree.copy (f : α → α) : Tree α → Tree α
  | .node v cs => .node (f v) (go cs)
where
  /-- `(n.copy() for n in self)`. -/
  go : List (Tree α) → List (Tree α)
    | [] => []
    | c :: cs => c.copy f :: go cs

/-- `copy(with_children=False)`. -/
def Tree.copyShallow (f : α → α) : Tree α → Tree α
  | .node v _ => .node (f v) []

end Quickly.Node
