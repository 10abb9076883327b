import Verif.Indent.Spec

/-!
# Elements that ask for whitespace

Models the elements of `quickly/dom/base.py` L104-149 that only have spacing, and says what texts are before and after an
element.
-/

namespace Quickly.Layout

open Quickly.Node Quickly.Text Quickly.Text.Spec

/-- `base.Newline`, `quickly/dom/base.py` L104-112. (It has an attribute `head` but is no `HeadElement`, so `head_point()` is None.) -/
def newline : Node.Tree Elem := .node { kind := .plain, sp := { after := ['\n'] } } []

/-- `base.BlankLine`, L115-123. -/
def blankLine : Node.Tree Elem := .node { kind := .plain, sp := { after := ['\n', '\n'] } } []

/-- `base.Line`, L126-136. -/
def line (cs : List (Node.Tree Elem)) : Node.Tree Elem :=
  .node { kind := .plain, sp := { before := ['\n'], after := ['\n'], between := [' '] } } cs

/-- `base.Column`, L139-146. -/
def column (cs : List (Node.Tree Elem)) : Node.Tree Elem :=
  .node { kind := .plain, sp := { before := ['\n'], after := ['\n'], between := ['\n'] } } cs

/-- `base.Text`, L149-150. -/
def text (s : String) : Node.Tree Elem := .node { kind := .head, head := s.toList } []

/-- The texts of the tree before the node at the place: those of the heads of the ancestors and of the nodes to the left. -/
def textsLeft : Node.Tree Elem → Path → List Str
  | _, [] => []
  | .node e cs, i :: p =>
    (if e.kind = .plain then [] else some? e.head) ++ texts.go (cs.take i) ++
      match cs[i]? with
      | some c => textsLeft c p
      | none => []

/-- The texts of the tree after the node at the place: those of the nodes to the right and of the tails of the ancestors. -/
def textsRight : Node.Tree Elem → Path → List Str
  | _, [] => []
  | .node e cs, i :: p =>
    (match cs[i]? with
      | some c => textsRight c p
      | none => []) ++
    texts.go (cs.drop (i + 1)) ++ (if e.kind = .block then some? e.tail else [])

end Quickly.Layout
