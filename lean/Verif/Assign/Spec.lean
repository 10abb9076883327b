import Verif.Assign.Model

/-! # Variables as a map -/

namespace Quickly.Assign.Spec

/-- A variable `name = value`, without anything else. -/
structure Binding where
  items : List Item
  value : Elem

/-- What there is: variables and other nodes. -/
inductive Entry where
  | var (b : Binding)
  | other (id : ℕ)

/-- The node for an entry. -/
def Entry.node : Entry → Child
  | .var b => .assignment [.identifier b.items, .equalSign, b.value]
  | .other i => .other i

/-- The name and value of the variables. -/
def bindings (es : List Entry) : List (Name × Elem) :=
  es.filterMap fun
    | .var b => some (getName b.items, b.value)
    | .other _ => none

/-- The other nodes. -/
def others (cs : List Child) : List ℕ :=
  cs.filterMap fun
    | .assignment _ => none
    | .other i => some i

/-- The value of a variable is not itself an Identifier. -/
def IsValue : Elem → Prop
  | .identifier _ => False
  | _ => True

/-- The node has a list of variables and other nodes, and every variable is there once. -/
def Holds (cs : List Child) (m : List (Name × Elem)) : Prop :=
  ∃ es : List Entry, cs = es.map Entry.node ∧ bindings es = m ∧ (m.map (·.1)).Nodup ∧
    ∀ e ∈ m, IsValue e.2

/-- The value of a variable in a list of names and values. -/
def lookup (m : List (Name × Elem)) (name : Name) : Option Elem :=
  (m.find? fun e => e.1 = name).map (·.2)

/-- A map with the value of a variable changed. -/
def update (m : Name → Option Elem) (name : Name) (v : Option Elem) : Name → Option Elem :=
  fun n => if n = name then v else m n

/-- A name is proper if it is a string, or a tuple with two or more parts. -/
def Proper : Name → Prop
  | .str _ => True
  | .int _ => False
  | .tuple ps => 2 ≤ ps.length

/-- The operations. -/
inductive Op where
  | set (name : Name) (node : Elem)
  | unset (name : Name)

/-- What the operations do to a map. -/
def Op.apply : Op → (Name → Option Elem) → (Name → Option Elem)
  | .set name node, m => update m name (some node)
  | .unset name, m => update m name none

/-- An operation with a proper name and value. -/
def Op.Ok : Op → Prop
  | .set name node => Proper name ∧ IsValue node
  | .unset _ => True

/-- What the operations do to the children of the node. -/
def Op.run (isSymbol : String → Bool) : Op → List Child → Py (List Child)
  | .set name node, cs => setVariable isSymbol cs name (.elem node)
  | .unset name, cs => pure (unsetVariable cs name)

/-- A history of operations. -/
def runAll (isSymbol : String → Bool) : List Op → List Child → Py (List Child)
  | [], cs => pure cs
  | op :: ops, cs => do runAll isSymbol ops (← op.run isSymbol cs)

/-- The same for a map. -/
def applyAll (ops : List Op) (m : Name → Option Elem) : Name → Option Elem :=
  ops.foldl (fun m op => op.apply m) m

/-- The plain values, that are returned as they were set. -/
inductive Plain : Val → Prop
  | int (v : ℤ) : Plain (.int v)
  | float (v : ℚ) : Plain (.float v)
  | str (v : String) : Plain (.str v)
  | intUnit (v : ℤ) (u : String) : u ∈ ["mm", "cm", "in", "pt"] → Plain (.pair (.int v) u)
  | floatUnit (v : ℚ) (u : String) : u ∈ ["mm", "cm", "in", "pt"] → Plain (.pair (.float v) u)

/-- What a user expects as the value of an element: the number that is written, with its unit; the fraction; the text. -/
inductive Reads : Elem → Val → Prop
  | int (v : ℤ) : Reads (.int v none) (.int v)
  | float (v : ℚ) : Reads (.float v none) (.float v)
  | intUnit (v : ℤ) (u : String) : Reads (.int v (some u)) (.pair (.int v) u)
  | floatUnit (v : ℚ) (u : String) : Reads (.float v (some u)) (.pair (.float v) u)
  | string (v : String) : Reads (.string v) (.str v)
  | symbol (v : String) : Reads (.symbol v) (.str v)
  | fraction (n d : ℤ) (q : ℚ) : d ≠ 0 → q * d = n → Reads (.fraction n d) (.fraction q)

/-- The elements that have no plain value: music, blocks and so on, and Scheme that is more than one boolean, number or
string. -/
inductive Opaque : Elem → Prop
  | other (id : ℕ) : Opaque (.other id)
  | none : Opaque (.scheme [])
  | expr (id : ℕ) : Opaque (.scheme [.other id])
  | more (a b : Scm) (l : List Scm) : Opaque (.scheme (a :: b :: l))

end Quickly.Assign.Spec
