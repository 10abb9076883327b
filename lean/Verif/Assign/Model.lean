import Verif.Basic
import Mathlib.Data.Rat.Defs

/-!
# Model of `HandleAssignments` (`quickly/dom/lily.py` L508-572)

and of the `Assignment`, `Identifier` and `List` elements and of the conversion between Python
values and elements.  `is_symbol` is a parameter; a float is a rational number here.
-/

namespace Quickly.Assign

/-- The nodes in a `List` or `Identifier`. -/
inductive Item where
  | symbol (head : String)
  | string (head : String)
  | int (head : ℤ)
  | separator (head : String)
  | scheme (id : ℕ)
  | comment (id : ℕ)
deriving DecidableEq

/-- The nodes in a `Scheme` element. -/
inductive Scm where
  | bool (head : Bool)
  | number (head : ℚ)
  | string (head : String)
  | other (id : ℕ)
deriving DecidableEq

/-- The nodes in an `Assignment`. -/
inductive Elem where
  | identifier (items : List Item)
  | equalSign
  | int (head : ℤ) (unit : Option String)
  | float (head : ℚ) (unit : Option String)
  | string (head : String)
  | symbol (head : String)
  | fraction (num den : ℤ)
  | scheme (children : List Scm)
  | other (id : ℕ)
deriving DecidableEq

/-- The children of the element that handles assignments. -/
inductive Child where
  | assignment (children : List Elem)
  | other (id : ℕ)
deriving DecidableEq

/-- The parts of a name. -/
inductive Part where
  | str (s : String)
  | int (i : ℤ)
deriving DecidableEq

/-- The name of a variable: a string or a tuple (or an integer, if an identifier only has that). -/
inductive Name where
  | str (s : String)
  | int (i : ℤ)
  | tuple (parts : List Part)
deriving DecidableEq

/-- The Python values that are set or returned. -/
inductive Val where
  | int (v : ℤ)
  | float (v : ℚ)
  | str (v : String)
  | bool (v : Bool)
  | fraction (v : ℚ)
  | pair (v : Val) (unit : String)
  | elem (e : Elem)
  | other
deriving DecidableEq

/-- `make_list_node`, L3284-3296. -/
def makeListNode (isSymbol : String → Bool) : Part → Item
  | .str s => if isSymbol s then .symbol s else .string s
  | .int i => .int i

/-- The inner loop of `List.set_list`, L978-980. -/
def setListRest (isSymbol : String → Bool) : List Part → List Item
  | [] => []
  | p :: ps =>
    let n := makeListNode isSymbol p
    .separator (match n with | .int _ => "," | _ => ".") :: n :: setListRest isSymbol ps

/-- `List.set_list`, L966-980 (a tuple only has strings and integers). -/
def setList (isSymbol : String → Bool) : List Part → List Item
  | [] => []
  | p :: ps => makeListNode isSymbol p :: setListRest isSymbol ps

/-- `List.get_list`, L957-964. -/
def getList (items : List Item) : List Part :=
  items.filterMap fun
    | .symbol s => some (.str s)
    | .string s => some (.str s)
    | .int i => some (.int i)
    | _ => none

/-- `Identifier.get_name`, L1035-1047. -/
def getName (items : List Item) : Name :=
  match getList items with
  | [.str s] => .str s
  | [.int i] => .int i
  | heads => .tuple heads

/-- `Identifier.set_name`, L1049-1063. -/
def setName (isSymbol : String → Bool) : Name → Py (List Item)
  | .str s => pure (setList isSymbol [.str s])
  | .int _ => .error .typeError
  | .tuple ps => pure (setList isSymbol ps)

/-- `Assignment.with_name`, L992-1001. -/
def withName (isSymbol : String → Bool) (name : Name) (node : Elem) : Py (List Elem) := do
  return [.identifier (← setName isSymbol name), .equalSign, node]

/-- `Assignment.get_value`, L1013-1016. -/
def getValue : List Elem → Option Elem
  | [] => none
  | .equalSign :: rest => rest.head?
  | _ :: rest => getValue rest

/-- Does one of the identifiers have this name?  The inner loop of
`HandleAssignments.find_assignment`, L513-515. -/
def hasName (name : Name) (children : List Elem) : Bool :=
  children.any fun
    | .identifier items => getName items = name
    | _ => false

/-- `HandleAssignments.find_assignment`, L510-515: the index of the assignment and its children. -/
def findAssignment (name : Name) : List Child → Option (ℕ × List Elem)
  | [] => none
  | .assignment es :: cs =>
    if hasName name es then some (0, es)
    else (findAssignment name cs).map fun (i, es) => (i + 1, es)
  | .other _ :: cs => (findAssignment name cs).map fun (i, es) => (i + 1, es)

/-- `value[1] in ('mm', 'cm', 'in', 'pt')`, L3409. -/
def isUnit (u : String) : Bool := u ∈ ["mm", "cm", "in", "pt"]

/-- L3415-3422, the conversion of a value with optional unit. -/
def fromPlain (unit : Option String) : Val → Py Elem
  | .bool b => pure (.scheme [.bool b])
  | .int v => pure (.int v unit)
  | .float v => pure (.float v unit)
  | .str s => pure (.string s)
  | _ => .error .valueError

/-- `isinstance(value[0], (int, float))`, L3409. -/
def isNumber : Val → Bool
  | .int _ | .float _ | .bool _ => true
  | _ => false

/-- `create_element_from_value`, L3388-3423. -/
def fromValue : Val → Py Elem
  | .elem e => pure e
  | .pair v u => if isNumber v && isUnit u then fromPlain (some u) v else .error .valueError
  | v => fromPlain none v

/-- `create_value_from_element`, L3426-3452; `none` is None. `Bool`, `Number` and `String` have no
attribute `value`. -/
def toValue : Elem → Py (Option Val)
  | .int v unit => pure (some (match unit with | some u => .pair (.int v) u | none => .int v))
  | .float v unit => pure (some (match unit with | some u => .pair (.float v) u | none => .float v))
  | .string s => pure (some (.str s))
  | .symbol s => pure (some (.str s))
  | .fraction n d => if d = 0 then .error .zeroDivisionError else pure (some (.fraction ((n : ℚ) / d)))
  | .scheme [.bool _] => .error .attributeError
  | .scheme [.number _] => .error .attributeError
  | .scheme [.string _] => .error .attributeError
  | _ => pure none

/-- `HandleAssignments.get_variable`, L517-537 (`none` is None). -/
def getVariable (cs : List Child) (name : Name) : Py (Option Val) :=
  match findAssignment name cs with
  | none => pure none
  | some (_, es) =>
    match getValue es with
    | none => pure none
    | some node => do
      match ← toValue node with
      | some v => pure (some v)
      | none => pure (some (.elem node))

/-- `assignment[-1] = node`. -/
def setLast (es : List Elem) (node : Elem) : List Elem := es.dropLast ++ [node]

/-- `HandleAssignments.set_variable`, L539-555. -/
def setVariable (isSymbol : String → Bool) (cs : List Child) (name : Name) (value : Val) :
    Py (List Child) := do
  let node ← fromValue value
  match findAssignment name cs with
  | some (i, es) => pure (cs.set i (.assignment (setLast es node)))
  | none => return cs ++ [.assignment (← withName isSymbol name node)]

/-- `HandleAssignments.unset_variable`, L557-566. -/
def unsetVariable (cs : List Child) (name : Name) : List Child :=
  match findAssignment name cs with
  | some (i, _) => cs.eraseIdx i
  | none => cs

/-- `HandleAssignments.variables`, L568-572. -/
def variableNames (cs : List Child) : List Name :=
  cs.flatMap fun
    | .assignment es => es.filterMap fun
      | .identifier items => some (getName items)
      | _ => none
    | .other _ => []

end Quickly.Assign
