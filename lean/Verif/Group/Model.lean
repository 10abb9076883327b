import Verif.Basic


/-!
# Model of `handle_assignments` and `postprocess_lyriclist` (`quickly/lang/lilypond.py`)
-/

namespace Quickly.Group

variable {α : Type}

/-- The nodes in the stream of `handle_assignments`; `α` is what is in a node. -/
inductive Node (α : Type) where
  | list (items : List α)
  | symbol (id : α)
  | string (id : α)
  | equalSign (id : α)
  | comment (id : α)
  | other (id : α)
deriving DecidableEq

/-- What is yielded: a node as it is, or an Assignment, with an Identifier with either the children
of a List or a single Symbol or String, and other nodes. -/
inductive Out (α : Type) where
  | node (n : Node α)
  | assignList (items : List α) (rest : List (Node α))
  | assignName (first : Node α) (rest : List (Node α))
deriving DecidableEq

/-- `isinstance(n, (lily.List, lily.Symbol, lily.String))`, L405. -/
def isName : Node α → Bool
  | .list _ | .symbol _ | .string _ => true
  | _ => false

/-- `isinstance(n, base.Comment)`, L410. -/
def isComment : Node α → Bool
  | .comment _ => true
  | _ => false

/-- `isinstance(n, lily.EqualSign)`, L420. -/
def isEqualSign : Node α → Bool
  | .equalSign _ => true
  | _ => false

/-- `first, *rest = variable`, and the Assignment, L412-419. -/
def assignment (vars : List (Node α)) : Out α :=
  match vars with
  | .list items :: rest => .assignList items rest
  | first :: rest => .assignName first rest
  | [] => .assignList [] []

mutual

/-- `handle_assignments`, L394-430: the outer loop. -/
def handleAssignments : List (Node α) → List (Out α)
  | [] => []
  | n :: nodes =>
    if isName n then readName [n] false nodes
    else .node n :: handleAssignments nodes

/-- The inner loop, L408-427: `vars` (`variable`) and `equalsign` are the local variables.  Both loops use
the same iterator. -/
def readName (vars : List (Node α)) (equalsign : Bool) : List (Node α) → List (Out α)
  | [] => vars.map .node
  | n :: nodes =>
    let vars := vars ++ [n]
    if isComment n then readName vars equalsign nodes
    else if equalsign then assignment vars :: handleAssignments nodes
    else if isEqualSign n then readName vars true nodes
    else vars.map .node ++ handleAssignments nodes

end

/-- The nodes in the stream of `postprocess_lyriclist`. -/
inductive LNode (α : Type) where
  | unpitched (children : List α)
  | lyric (id : α)
  | other (id : α)
deriving DecidableEq

/-- What is yielded: a LyricItem with children, or another node. -/
inductive LOut (α : Type) where
  | item (children : List α)
  | node (id : α)
deriving DecidableEq

/-- `postprocess_lyriclist`, L531-556; `p` is the local vars: the children of the LyricItem that
is not yet yielded. (`if p` is true for every LyricItem.) -/
def lyricsLoop (p : Option (List α)) : List (LNode α) → List (LOut α)
  | [] => p.toList.map .item
  | .unpitched cs :: nodes => .item (p.getD [] ++ cs) :: lyricsLoop none nodes
  | .lyric i :: nodes => p.toList.map .item ++ lyricsLoop (some [i]) nodes
  | .other i :: nodes => p.toList.map .item ++ .node i :: lyricsLoop none nodes

/-- `postprocess_lyriclist`. -/
def postprocessLyrics (nodes : List (LNode α)) : List (LOut α) := lyricsLoop none nodes

end Quickly.Group
