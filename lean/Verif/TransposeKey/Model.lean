import Verif.Key.Model

/-!
# Model of `Key.key_signature` in `quickly/dom/lily.py`

The children of a `\key` statement are what the loop of `key_signature` distinguishes.  A variable is followed with
`get_value_with_scope` (C86), of which only matters here whether it finds something: it returns the value and then the scope, but L2163
takes it for the scope and then the value.  So the loop goes on with the scope, which is None or a `Scope` and not a node, and
ends; the value is taken for the scope.  A later variable is not looked up in a node, so this models statements with at most one
variable (`signatures()`, L2173-2174).
-/

namespace Quickly.TransposeKey

open Quickly.Pitch Quickly.Key

/-- A child of a `\key` statement, L2139-2165. -/
inductive Arg
  /-- a `Pitchable` -/
  | pitch (nd : PNode)
  /-- a `Mode`; the head has no backslash -/
  | mode (name : String)
  /-- an `IdentifierRef`, and the children it refers to, if it is found -/
  | ref (value : Option (List Arg))
  /-- a `Scheme` expression: the numbers directly in every list in it, in order of the text -/
  | scheme (lists : List (List ℚ))
  /-- anything else, such as a comment -/
  | other

/-- `bool(mode)`: an empty string or list is false. -/
def truthy : Mode → Bool
  | .name s => s != ""
  | .list l => !l.isEmpty

/-- The for loop, L2156-2168, with the pitch and mode found so far. -/
def keyLoop (pp : Processor) (pitch : Option Pitch) (mode : Option Mode) : List Arg → Py (Option Pitch × Option Mode)
  | [] => .ok (pitch, mode)
  | .pitch nd :: rest => match pp.readNode nd with
    | .error e => .error e
    | .ok p => keyLoop pp (some p) mode rest
  | .mode s :: rest => keyLoop pp pitch (some (.name s)) rest
  | .ref none :: _ => .error .typeError
  | .ref (some _) :: rest => keyLoop pp pitch mode rest
  | .scheme ls :: rest => keyLoop pp pitch (match ls.getLast? with | some l => some (.list l) | none => mode) rest
  | .other :: rest => keyLoop pp pitch mode rest

/-- `Key.key_signature(processor)`, L2147-2171: None if there is no pitch or no mode. -/
def keySignature (pp : Processor) (args : List Arg) : Py (Option KeySignature) :=
  match keyLoop pp none none args with
  | .error e => .error e
  | .ok (some p, some m) =>
    if truthy m then
      match KeySignature.make p.note.toNat p.alter m majorScale with
      | .error e => .error e
      | .ok s => .ok (some s)
    else .ok none
  | .ok _ => .ok none

end Quickly.TransposeKey
