import Verif.PyDict
import Mathlib.Data.Nat.Notation

/-!
# Model of the spacing attributes, `quickly/dom/element.py` L79-148

The five names are `before`, `after_head`, `between`, `before_tail` and `after`.
Per class, the metaclass (L140-148) creates for a name one descriptor holding the class
default; a subclass that does not redefine the attribute inherits it.  So for one object
there is one default per name: `dflt`.

An object is represented by its `_space` slot: `none` when the slot is not set.
-/

namespace Quickly.Space

/-- The names of the spacing properties, L141. -/
inductive Name
  | before | afterHead | between | beforeTail | after
  deriving DecidableEq, Repr

/-- The `_space` slot of an object: unset, or a dict. -/
abbrev Slot (ν : Type) := Option (PyDict Name ν)

variable {ν : Type} [DecidableEq ν]

/-- `_SpaceProperty.__get__`, L94-99. -/
def getProp (dflt : Name → ν) (n : Name) (o : Slot ν) : ν :=
  match o with
  | none => dflt n                      -- AttributeError
  | some d =>
    match d.get n with
    | some v => v
    | none => dflt n                    -- KeyError

/-- `_SpaceProperty.__delete__`, L121-127. -/
def delProp (n : Name) (o : Slot ν) : Slot ν :=
  match o with
  | none => none                        -- AttributeError
  | some d =>
    match d.get n with
    | none => some d                    -- KeyError
    | some _ => if (d.del n).isEmpty then none else some (d.del n)

/-- `_SpaceProperty.__set__`, L101-119. -/
def setProp (dflt : Name → ν) (n : Name) (v : ν) (o : Slot ν) : Slot ν :=
  match o with
  | none => if v = dflt n then none else some (PyDict.set n v [])
  | some d =>
    if v = dflt n then
      match d.get n with
      | none => some d                  -- KeyError
      | some _ => if (d.del n).isEmpty then none else some (d.del n)
    else some (d.set n v)

/-- A statement that changes a spacing attribute. -/
inductive Op (ν : Type)
  | set (n : Name) (v : ν)
  | del (n : Name)

/-- Execution of one statement. -/
def step (dflt : Name → ν) (o : Slot ν) : Op ν → Slot ν
  | .set n v => setProp dflt n v o
  | .del n => delProp n o

/-- Execution of a list of statements on a fresh object (no `_space` slot). -/
def run (dflt : Name → ν) (ops : List (Op ν)) : Slot ν := ops.foldl (step dflt) none

end Quickly.Space
