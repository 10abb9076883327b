import Verif.Basic

/-!
# Model of `quickly/datatypes.py`

A `Properties` object is its `__dict__`: an insertion-ordered list of pairs with
distinct keys.  Attribute values are `Option β`, `none` being Python's `None`.
Simplification: names that Python itself reserves on the class (`__class__`,
`__dict__`, ...) are not treated specially.
-/

namespace Quickly.Datatypes

variable {κ β : Type} [DecidableEq κ]

/-- The `__dict__` of a Properties object. -/
abbrev Dict (κ β : Type) := List (κ × Option β)

/-- `dict.get(k)` as a partial function: `none` when the key is absent. -/
def Dict.lookup (k : κ) : Dict κ β → Option (Option β)
  | [] => none
  | (k', v) :: d => if k' = k then some v else Dict.lookup k d

/-- `d[k] = v`: replaces the value in place, or appends a new key. -/
def Dict.set (k : κ) (v : Option β) : Dict κ β → Dict κ β
  | [] => [(k, v)]
  | (k', v') :: d => if k' = k then (k, v) :: d else (k', v') :: Dict.set k v d

/-- `del d[k]`, `none` for KeyError. -/
def Dict.erase (k : κ) : Dict κ β → Option (Dict κ β)
  | [] => none
  | (k', v') :: d => if k' = k then some d else
    match Dict.erase k d with
    | none => none
    | some d' => some ((k', v') :: d')

/-- `a | b` and `a.update(b)`: the items of `b` are set one by one. -/
def Dict.union (a b : Dict κ β) : Dict κ β :=
  b.foldl (fun d kv => Dict.set kv.1 kv.2 d) a

/-- `Properties.__getattr__`/normal attribute access, `quickly/datatypes.py`
L70-71: an attribute that is not in `__dict__` reads as None. -/
def getattr (d : Dict κ β) (k : κ) : Option β :=
  match Dict.lookup k d with
  | some v => v
  | none => none

/-- `setattr` (the inherited one) stores in `__dict__`. -/
def setattr (d : Dict κ β) (k : κ) (v : Option β) : Dict κ β := Dict.set k v d

/-- `Properties.__delattr__`, `quickly/datatypes.py` L73-77: KeyError is swallowed. -/
def delattr (d : Dict κ β) (k : κ) : Dict κ β :=
  match Dict.erase k d with
  | some d' => d'
  | none => d

/-- `Properties.__contains__`, `quickly/datatypes.py` L84-85. -/
def contains (d : Dict κ β) (k : κ) : Bool := (Dict.lookup k d).isSome

/-- `Properties.__bool__`, `quickly/datatypes.py` L60-61. -/
def bool (d : Dict κ β) : Bool := !d.isEmpty

/-- `Properties.__init__`, `quickly/datatypes.py` L57-58. -/
def init (kwargs : Dict κ β) : Dict κ β := Dict.union [] kwargs

/-- `Properties.__add__`, `quickly/datatypes.py` L87-89. -/
def add (a b : Dict κ β) : Dict κ β := init (Dict.union a b)

/-- Python's dict equality: same size and every item of `a` is in `b`;
`Properties.__eq__`, `quickly/datatypes.py` L79-82 (both Properties). -/
def eq [DecidableEq β] (a b : Dict κ β) : Bool :=
  a.length == b.length && a.all (fun kv => Dict.lookup kv.1 b == some kv.2)

/-! ## Programs over Properties objects -/

/-- One statement of a client program; objects are numbered in creation order. -/
inductive Op (κ β : Type)
  | new (kwargs : Dict κ β)
  | set (o : Nat) (k : κ) (v : Option β)
  | del (o : Nat) (k : κ)
  | add (a b : Nat)

/-- Modify element `i` of the heap. -/
def modify {γ : Type} (i : Nat) (f : γ → γ) : List γ → List γ
  | [] => []
  | x :: xs => match i with
    | 0 => f x :: xs
    | i + 1 => x :: modify i f xs

/-- Execute one statement on the list of objects; a reference to an object that
does not exist does nothing. -/
def step (heap : List (Dict κ β)) : Op κ β → List (Dict κ β)
  | .new kw => heap ++ [init kw]
  | .set o k v => modify o (fun d => setattr d k v) heap
  | .del o k => modify o (fun d => delattr d k) heap
  | .add a b =>
    match heap[a]?, heap[b]? with
    | some x, some y => heap ++ [add x y]
    | _, _ => heap

/-- Execute a program from an empty heap. -/
def run (ops : List (Op κ β)) : List (Dict κ β) := ops.foldl step []

end Quickly.Datatypes
