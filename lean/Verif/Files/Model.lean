import Verif.Length.Model
import Verif.Scope.Model

/-!
# Model of `Time.length()` with a scope: variables in other files

`quickly/time.py` L132-137, L176-183, L332-361 with `Reference.get_value_with_scope`, `quickly/dom/lily.py` L427-443, and
`Lookup`, L3165-3269.  The search for the assignment is that of the `Scope` model, the music that of the `Length` model.
What the nodes of a DOM document are is given by a function from parce Documents.

Simplifications: those of both models; an `\include` without a filename is an other node, and so is an Assignment without
a name or a value.
-/

namespace Quickly.Files

open Quickly.Node Quickly.Signature Quickly.Length
open Quickly.Scope (Config Level Scope Doc precedingNodes findAssignment)

/-- The nodes of the DOM documents that parce Documents are transformed to. -/
abbrev Source := Doc → List Nd

/-- `Include.filename`, `quickly/dom/lily.py` L2810-2814. -/
def filename (n : Nd) : Option String := (n.children.find? (isA .String)).map headText

/-- What `Lookup` sees of a node at the toplevel, L3232-3250, L3263-3269; `i` is its index in the document. -/
def seen (i : ℕ) (t : Nd) : Scope.Node :=
  if isA .Include t then
    match filename t with
    | some f => .incl f
    | none => .other i
  else if isA .Assignment t then
    match assignedName t, assignedValue [] t.children with
    | some name, some _ => .assign name i
    | _, _ => .other i
  else .other i

/-- What `Lookup` sees of the nodes at the toplevel; `i` is the index of the first one. -/
def seenAll (i : ℕ) : List Nd → List Scope.Node
  | [] => []
  | t :: ts => seen i t :: seenAll (i + 1) ts

/-- The nodes that `Lookup` visits first for a node in the child at index `i` of the document of a scope, in that document:
those before that child, backward, L3188-3200. -/
def placeOf (src : Source) (s : Scope) (i : ℕ) : List Scope.Node := ((seenAll 0 (src s.top.doc)).take i).reverse

/-- What comes before the value of the Assignment at index `i` of a document, backward, and the value. -/
def valueAt (ts : List Nd) (i : ℕ) : Option (List Nd × Nd) :=
  match ts[i]? with
  | some t => assignedValue (revL (ts.take i)) t.children
  | none => none

/-- `TimeContext.remote_length`, `quickly/time.py` L350-361: the value of the variable with name `name` is searched for
from a place in the document of scope `s`, and the value is looked at in the scope in which it is found.  If a name is not
found, `get_value_with_scope` returns None, which can't be unpacked.  The first number limits the depth of includes (C53:
the number of documents suffices), the second the number of variables that are followed. -/
def remoteLength (cfg : Config) (depth : ℕ) (src : Source) : ℕ → Scope → List Scope.Node → Time.Remote
  | 0, _, _, _, _ => .error .runtimeError
  | k + 1, s, place, tr, name =>
    match precedingNodes cfg depth s.top s.parents place with
    | none => .error .runtimeError
    | some nodes =>
      match findAssignment name nodes with
      | none => .error .typeError
      | some (i, s') =>
        match valueAt (src s'.top.doc) i with
        | none => .ok 0
        | some (before, v) =>
          match toMus (some .Assignment) before v with
          | .error e => .error e
          | .ok m =>
            match m.kind with
            | .reference name' => remoteLength cfg depth src k s' (placeOf src s' i) tr name'
            | kind =>
              if kind.isMusic then Time.length (remoteLength cfg depth src k s' (placeOf src s' i)) tr m else .ok 0

/-- `Time(scope).length(node)`, `quickly/time.py` L176-183, for a node that is not in other music, in the child at index
`i` of the document of the scope; `inner` is what is in that child before the node. -/
def timeLength (cfg : Config) (depth : ℕ) (src : Source) (k : ℕ) (s : Scope) (i : ℕ) (inner : List Nd)
    (parent : Option Cls) (n : Nd) : Py ℚ :=
  match toMus parent (revL ((src s.top.doc).take i ++ inner)) n with
  | .error e => .error e
  | .ok m => Time.length (remoteLength cfg depth src k s (placeOf src s i)) {} m

end Quickly.Files
