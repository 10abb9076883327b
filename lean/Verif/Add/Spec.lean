import Verif.Add.Model

/-! # What it means that children respect an order -/

namespace Quickly.Add.Spec

variable {ν κ : Type}

/-- The place of a node in an order: the index of the first entry it is an instance of; a node
that does not occur in the order comes after all others. -/
def place (isa : ν → κ → Bool) (order : List κ) (n : ν) : ℕ := order.findIdx (isa n)

/-- The children are in the order. -/
def Respects (isa : ν → κ → Bool) (order : List κ) (children : List ν) : Prop :=
  children.Pairwise fun a b => place isa order a ≤ place isa order b

/-- The node is of one of the types of the order. -/
def Listed (isa : ν → κ → Bool) (order : List κ) (n : ν) : Prop := ∃ c ∈ order, isa n c = true

end Quickly.Add.Spec
