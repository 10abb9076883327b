import Verif.Basic
import Mathlib.Data.Nat.Notation

/-!
# Model of ordered insertion, `quickly/dom/element.py` L708-739

Nodes and classes are abstract; `isa n c` is `isinstance(n, c)`.  An entry of a child order
can be a class or a (nested) tuple of classes; both are one abstract class here, since
`isinstance` accepts either.
-/

namespace Quickly.Add

variable {ν κ : Type}

/-- `isinstance(n, skip)` for a tuple of classes. -/
def isaAny (isa : ν → κ → Bool) (n : ν) (skip : List κ) : Bool := skip.any (isa n)

/-- The loop `for n in self ^ skip: i = self.index(n); self.insert(i, node); return`,
L734-737: inserts before the first child that is not an instance of `skip`; `none` when
there is no such child. -/
def insertAfter (isa : ν → κ → Bool) (skip : List κ) (node : ν) : List ν → Option (List ν)
  | [] => none
  | n :: rest =>
    if isaAny isa n skip then
      match insertAfter isa skip node rest with
      | none => none
      | some l => some (n :: l)
    else some (node :: n :: rest)

/-- The loop `for index, cls in enumerate(order)`, L731-737; `done` is `order[:index]`. -/
def tryOrder (isa : ν → κ → Bool) (node : ν) (children : List ν) (done : List κ) :
    List κ → Option (List ν)
  | [] => none
  | cls :: rest =>
    if isa node cls then
      match insertAfter isa done node children with
      | some l => some l
      | none => tryOrder isa node children (done ++ [cls]) rest
    else tryOrder isa node children (done ++ [cls]) rest

/-- The loop `for order in self.child_order()`, L730. -/
def tryOrders (isa : ν → κ → Bool) (node : ν) (children : List ν) :
    List (List κ) → Option (List ν)
  | [] => none
  | order :: rest =>
    match tryOrder isa node children [] order with
    | some l => some l
    | none => tryOrders isa node children rest

/-- `Element.add`, L719-739: the children after adding `node`. -/
def add (isa : ν → κ → Bool) (orders : List (List κ)) (children : List ν) (node : ν) : List ν :=
  match tryOrders isa node children orders with
  | some l => l
  | none => children ++ [node]

end Quickly.Add
