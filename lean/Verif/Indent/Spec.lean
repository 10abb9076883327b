import Verif.Indent.Model
import Verif.Text.Spec

/-!
# What indented output should be

The output is described by a stream of whitespace wishes and texts. Without the indents
and line structure, the output is `render`: every text preceded by the most important of
the wishes since the previous text.
-/

namespace Quickly.Indent.Spec

open Quickly.Node Quickly.Text

/-- A whitespace wish or a text. -/
inductive Item
  | wish (w : Str)
  | text (x : Str)

/-- The wish between a child and the previous one, if there is one. -/
def between (cc : Concat) (e : Elem) (prev : Option (Tree Elem)) (m : Tree Elem) : List Item :=
  match prev with
  | some n => [.wish (cc e n m)]
  | none => []

/-- The wishes and texts of an element and its descendants in document order: the wish before;
the head and, if something follows it in the element, the wish after the head; the children
with the wishes between them; the tail with the wish before it; the wish after. -/
def stream (cc : Concat) : Tree Elem → List Item
  | .node e cs =>
    [.wish e.sp.before]
    ++ (if e.kind ≠ .plain ∧ e.head ≠ [] then
          .text e.head :: (if (e.kind = .block ∧ e.tail ≠ []) ∨ cs ≠ [] then [.wish e.sp.afterHead] else [])
        else [])
    ++ kids e none cs
    ++ (if e.kind = .block ∧ e.tail ≠ [] then [.wish e.sp.beforeTail, .text e.tail] else [])
    ++ [.wish e.sp.after]
where
  /-- The children. -/
  kids (e : Elem) (prev : Option (Tree Elem)) : List (Tree Elem) → List Item
    | [] => []
    | m :: ms => between cc e prev m ++ stream cc m ++ kids e (some m) ms

/-- The text with the most important wishes in between; `ws` are the wishes so far. Wishes
after the last text are dropped. -/
def render (ws : List Str) : List Item → Str
  | [] => []
  | .wish w :: is => render (ws ++ [w]) is
  | .text x :: is => collapse ws ++ x ++ render [] is

/-- Lines joined by newlines. -/
def joinLines : List Str → Str
  | [] => []
  | [l] => l
  | l :: m :: ls => l ++ '\n' :: joinLines (m :: ls)

/-- Without whitespace characters. -/
def visible (isSpace : Char → Bool) (s : Str) : Str := s.filter fun c => !isSpace c

/-- All wishes of the tree are whitespace. -/
def wishesAreSpace (isSpace : Char → Bool) (cc : Concat) (t : Tree Elem) : Prop :=
  ∀ w, Text.Spec.Wish cc t w → ∀ c ∈ w, isSpace c = true

end Quickly.Indent.Spec
