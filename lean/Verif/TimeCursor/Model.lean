import Verif.Time.Model
import Verif.Find.Model

/-!
# Model of `Time.cursor_position` and `Time.cursor_duration`, `quickly/time.py` L237-277

A node has the tokens it was read from (`Find`) and what counts for the time (`Time`).  The cursor is its position, or
the positions of its selection.
-/

namespace Quickly.TimeCursor

open Quickly.Node Quickly.Find Quickly.Time

/-- What is known of a node. -/
abbrev Label := Org × Time.Kind

/-- The origins of a tree. -/
def orgs : Node.Tree Label → Node.Tree Org
  | .node l cs => .node l.1 (go cs)
where
  /-- The same for the children. -/
  go : List (Node.Tree Label) → List (Node.Tree Org)
    | [] => []
    | c :: cs => orgs c :: go cs

/-- The music of a tree. -/
def music : Node.Tree Label → Mus
  | .node l cs => .node l.2 (go cs)
where
  /-- The same for the children. -/
  go : List (Node.Tree Label) → List Mus
    | [] => []
    | c :: cs => music c :: go cs

/-- `isinstance(node, Chord)` for the node at a path. -/
def chordAt (root : Mus) (path : List ℕ) : Bool :=
  match get root path with
  | some (.node (.chord ..) _) => true
  | _ => false

/-- `for chord in node << Chord`, L150-151: the nearest ancestor that is a Chord, of the node at `path.take k`. -/
def chordAbove (root : Mus) (path : List ℕ) : ℕ → Option (List ℕ)
  | 0 => none
  | k + 1 => if chordAt root (path.take k) then some (path.take k) else chordAbove root path k

/-- The loop `while node:`, L152-155, from the node at `path.take k`. -/
def childLoop (root : Mus) (path : List ℕ) : ℕ → Option (List ℕ)
  | 0 => if musicAt root [] then some [] else none
  | k + 1 =>
    if musicAt root (path.take (k + 1)) || musicAt root (path.take k) then some (path.take (k + 1))
    else childLoop root path k

/-- `Time._music_child(node)`, L145-155. -/
def musicChild (root : Mus) (path : List ℕ) : Option (List ℕ) :=
  if chordAt root path then some path
  else
    match chordAbove root path path.length with
    | some c => some c
    | none => childLoop root path path.length

/-- `Time.cursor_position(cursor)`, L237-252; `dom` is what `get_transform()` returns.  If there is no node,
`_music_child(None)` fails. -/
def cursorPosition (rem : Remote) (dom : Option (Node.Tree Label)) (pos : ℤ) : Py (Option (List ℕ × ℚ)) :=
  match dom with
  | none => .ok none
  | some t =>
    match findRight pos ([], orgs t) with
    | .error e => .error e
    | .ok none => .error .typeError
    | .ok (some n) =>
      match musicChild (music t) n.1 with
      | none => .ok none
      | some c => (position rem (music t) c false).map some

/-- `Time.cursor_duration(cursor)`, L254-277; `selection` is `none` if there is no selection. -/
def cursorDuration (rem : Remote) (dom : Option (Node.Tree Label)) (selection : Option (ℤ × ℤ)) :
    Py (Option (List ℕ × ℚ)) :=
  match selection, dom with
  | some (pos, stop), some t =>
    match findRight pos ([], orgs t) with
    | .error e => .error e
    | .ok none => .ok none
    | .ok (some n) =>
      match musicChild (music t) n.1 with
      | none => .ok none
      | some start =>
        match findLeft stop ([], orgs t) with
        | .error e => .error e
        | .ok none => .ok none
        | .ok (some n) =>
          match musicChild (music t) n.1 with
          | none => .ok none
          | some last =>
            match duration rem (music t) start last with
            | .error e => .error e
            | .ok none => .ok none
            | .ok (some r) => .ok (if 0 ≤ r.2 then some r else none)
  | _, _ => .ok none

end Quickly.TimeCursor
