import Verif.Node.Model

/-!
# Model of `Node.dump`, `quickly/node.py` L35-44, L387-389, L584-601

What `dump()` prints for a node of a tree. Nodes are known by their places in the tree, so that `node.parent` is the place
without its last index. What `repr(node)` shows can depend on the node (its class, head and position are its value) and on all
that is below it.
-/

namespace Quickly.DumpTree

open Quickly.Node

variable {α : Type}

/-- Text. -/
abbrev Str := List Char

/-- The four strings of a style. -/
abbrev Style := Str × Str × Str × Str

/-- `DUMP_STYLES`, L35-42. -/
def styles : List (Str × Style) :=
  [("ascii".toList, " | ".toList, "   ".toList, " |-".toList, " `-".toList),
   ("round".toList, " │ ".toList, "   ".toList, " ├╴".toList, " ╰╴".toList),
   ("square".toList, " │ ".toList, "   ".toList, " ├╴".toList, " └╴".toList),
   ("double".toList, " ║ ".toList, "   ".toList, " ╠═".toList, " ╚═".toList),
   ("thick".toList, " ┃ ".toList, "   ".toList, " ┣╸".toList, " ┗╸".toList),
   ("flat".toList, "│".toList, " ".toList, "├".toList, "╰".toList)]

/-- `DUMP_STYLES[style or DUMP_STYLE_DEFAULT]`, L44, L592; none is KeyError. -/
def getStyle (name : Option Str) : Option Style :=
  let name := match name with
    | some n => if n = [] then "round".toList else n
    | none => "round".toList
  styles.lookup name

/-- `d[i]`, for the indices 0 to 3. -/
def Style.get (d : Style) : ℕ → Str
  | 0 => d.1
  | 1 => d.2.1
  | 2 => d.2.2.1
  | _ => d.2.2.2

/-- `is_last()`, L387-389: `self.parent[-1] is self`. -/
def isLast (t : Tree α) (p : Path) : Bool :=
  match p.getLast?, t.get? p.dropLast with
  | some i, some u => decide (i + 1 = u.children.length)
  | _, _ => false

/-- The loop L595-598 that makes the prefix: the number of rounds that are left, `i`, `node` and `prefix`. -/
def prefixLoop (t : Tree α) (d : Style) : ℕ → ℕ → Path → List Str → List Str
  | 0, _, _, pre => pre
  | k + 1, i, p, pre => prefixLoop t d k 0 p.dropLast (pre ++ [d.get (i + if isLast t p then 1 else 0)])

/-- The line that is printed for the node at `p`, L591-599. -/
def line (t : Tree α) (d : Style) (repr : Tree α → Str) (p : Path) (depth : ℕ) (n : Tree α) : Str :=
  (prefixLoop t d depth 2 p []).reverse.flatten ++ repr n

/-- `dump(file, style, depth)` for the node `n` at `p` in the tree `t`, L584-601: the lines. -/
def dump (t : Tree α) (d : Style) (repr : Tree α → Str) : Path → ℕ → Tree α → List Str
  | p, depth, .node v cs => line t d repr p depth (.node v cs) :: kids p depth 0 cs
where
  /-- The loop over the children, L600-601, from an index. -/
  kids (p : Path) (depth : ℕ) : ℕ → List (Tree α) → List Str
    | _, [] => []
    | i, c :: cs => dump t d repr (p ++ [i]) (depth + 1) c ++ kids p depth (i + 1) cs

/-- What is printed: each line and a newline. -/
def text (ls : List Str) : Str := (ls.map (· ++ ['\n'])).flatten

/-- The text that `node.dump(style=style)` prints, for the node at `p`; none is KeyError, for a style that does not exist. -/
def dumpText (t : Tree α) (repr : Tree α → Str) (style : Option Str) (p : Path) : Option Str :=
  match getStyle style, t.get? p with
  | some d, some n => some (text (dump t d repr p 0 n))
  | _, _ => none

end Quickly.DumpTree
