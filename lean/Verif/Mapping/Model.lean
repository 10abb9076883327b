import Verif.PyDict
import Mathlib.Data.Nat.Notation

/-!
# Model of mapping elements, `quickly/dom/element.py` L932-980 and L1050-1064

A class is represented by its `mapping` dict from texts to head values.
-/

namespace Quickly.Mapping

/-- Head values that occur in mapping tables; `.num n` is the number `n / 2`.  Python
values that compare equal (1, 1.0 and True) are one value here, as they are one dict key. -/
inductive Head
  | str (s : String)
  | num (twice : Int)
  | pair (s : String) (h : Head)
  deriving DecidableEq, Repr

/-- The class attribute `mapping`, a dict. -/
abbrev Table := PyDict String Head

variable {τ : Type} [DecidableEq τ] {η : Type} [DecidableEq η]

/-- `{v: k for k, v in cls.mapping.items()}` in `__init_subclass__`, L940-943. -/
def inverted (m : PyDict τ η) : PyDict η τ := PyDict.ofItems (m.map fun kv => (kv.2, kv.1))

/-- `MappingElement.check_head`, L945-947. -/
def checkHead (m : PyDict τ η) (h : η) : Bool := ((inverted m).get h).isSome

/-- The constructor, `TextElement.__new__` and `__init__`, L877-893; gives the head value of
the new element.  Children and spacing attributes are not represented here. -/
def construct (m : PyDict τ η) (h : η) : Py η :=
  if checkHead m h then .ok h else .error .typeError

/-- `MappingElement.from_mapping`, L949-955. -/
def fromMapping (m : PyDict τ η) (text : τ) : Py η :=
  match m.get text with
  | none => .error .keyError
  | some h => construct m h

/-- `MappingElement.read_head`, L957-960; the text of the first origin token. -/
def readHead (m : PyDict τ η) (text : τ) : Py η :=
  match m.get text with
  | none => .error .keyError
  | some h => .ok h

/-- `MappingElement.write_head`, L962-964. -/
def writeHead (m : PyDict τ η) (h : η) : Py τ :=
  match (inverted m).get h with
  | none => .error .keyError
  | some t => .ok t

/-- The texts of a class: a fixed head, or the keys of a mapping. -/
inductive Texts
  | head (s : String)
  | mapping (t : Table)

/-- A class: its name and texts. -/
abbrev Cls := String × Texts

/-- The keys one class adds in `head_mapping`: `dict.fromkeys(cls.mapping, cls)` or
`d[cls.head] = cls`, L1060-1063. -/
def Texts.keys : Texts → List String
  | .head s => [s]
  | .mapping t => PyDict.keys t

/-- `head_mapping(*element_types)`, L1050-1064; the values are class names.  Every class
here is a HeadElement, so the case of neither does not occur. -/
def headMapping (types : List Cls) : PyDict String String :=
  types.foldl (fun d c => c.2.keys.foldl (fun d k => d.set k c.1) d) []

end Quickly.Mapping
