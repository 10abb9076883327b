import Verif.Node.Model
import Verif.Text.Model

/-!
# Model of `py_dump`, `quickly/dom/element.py` L263-318
-/

namespace Quickly.Dump

open Quickly.Node Quickly.Text

/-- What is dumped of an element: its class, and the head value of a `TextElement`. -/
abbrev Val (κ η : Type) := κ × Option η

/-- How a class is named (the last part of the module name, a dot and the name of the class, L289-292), and the `repr()`
of head values. -/
structure Names (κ η : Type) where
  name : κ → Str
  repr : η → Str

variable {κ η : Type}

/-- The children with whether they are last: `is_last()`. -/
def withLast : List (Tree (Val κ η)) → List (Tree (Val κ η) × Bool)
  | [] => []
  | [t] => [(t, true)]
  | t :: ts => (t, false) :: withLast ts

/-- The number of nodes. -/
def size : Tree (Val κ η) → ℕ
  | .node _ cs => 1 + sizes cs
where
  /-- The number of nodes in a list of trees. -/
  sizes : List (Tree (Val κ η)) → ℕ
    | [] => 0
    | t :: ts => size t + sizes ts

/-- The number of nodes that an iterator has still to give. -/
def todo (gen : List (Tree (Val κ η) × Bool)) : ℕ := (gen.map fun x => size x.1).sum

theorem todo_withLast : ∀ cs : List (Tree (Val κ η)), todo (withLast cs) = size.sizes cs
  | [] => rfl
  | [t] => by simp [withLast, todo, size.sizes]
  | t :: u :: ts => by
    have := todo_withLast (u :: ts)
    simp only [todo] at this
    simp [withLast, todo, size.sizes, this]

/-- `' ' * len(stack) * indent_width`, the name, the parenthesis and the head value, L291-296. -/
def opening (N : Names κ η) (width depth : ℕ) (t : Tree (Val κ η)) : Str :=
  List.replicate (depth * width) ' ' ++ N.name t.val.1 ++ ['('] ++
    match t.val.2 with
    | some v => N.repr v ++ if t.children.isEmpty then [] else [',']
    | none => []

/-- `'),\n' if node.parent and not node.is_last() else ')'`, L297. -/
def closing (last : Bool) : Str := if last then [')'] else [')', ',', '\n']

/-- `generate_text()`, L284-312, all its texts joined, with the iterator `gen` and the stack. -/
def run (N : Names κ η) (width : ℕ) : List (Tree (Val κ η) × Bool) → List (List (Tree (Val κ η) × Bool) × Str) → Str
  | [], [] => []
  | [], (gen, text) :: stack => text ++ run N width gen stack
  | (n, last) :: gen, stack =>
    opening N width stack.length n ++
      if n.children.isEmpty then closing last ++ run N width gen stack
      else '\n' :: run N width (withLast n.children) ((gen, closing last) :: stack)
termination_by gen stack => 2 * (todo gen + (stack.map fun x => todo x.1).sum) + stack.length
decreasing_by
  · simp [todo]
  · obtain ⟨v, cs⟩ := n
    simp [todo, size]; omega
  · obtain ⟨v, cs⟩ := n
    rw [todo_withLast]
    simp [todo, size, Tree.children]; omega

/-- `py_dump(file, indent_width)`, without the newline that `print` adds. `last` is true if the node has no parent or is
the last child of its parent. -/
def pyDump (N : Names κ η) (width : ℕ) (last : Bool) (t : Tree (Val κ η)) : Str := run N width [(t, last)] []

end Quickly.Dump
