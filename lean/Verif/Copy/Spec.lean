import Verif.Copy.Model

/-!
# What is expected of copies
-/

namespace Quickly.Copy.Spec

open Quickly.Node Quickly.Text Quickly.Edits Quickly.Space Quickly.Copy

variable {κ η : Type} [DecidableEq η]

/-- The objects that a program can make: by calling a class, from tokens, and by setting the head, setting or deleting
spacing attributes, copying, and copying the origin of another object. -/
inductive Made (C : Classes κ η) : Obj κ η → Prop
  | new (k v attrs) : Made C (new C k v attrs)
  | withOrigin (k v ho tl attrs) : C.kind k ≠ .plain → Made C (withOrigin C k v ho tl attrs)
  | setHead (v o o') : Made C o → setHead C v o = .ok o' → Made C o'
  | setSpace (op o) : Made C o → Made C (setSpace C op o)
  | copy (o) : Made C o → Made C (copyNode C o)
  | copyWithOrigin (o) : Made C o → Made C (copyNodeWithOrigin C o)
  | copyOriginFrom (o other m) : Made C o → Made C other → Made C (copyOriginFrom C o other m)

/-- Every node of a tree has the property. -/
def Each {α : Type} (P : α → Prop) (t : Tree α) : Prop := ∀ p n, t.get? p = some n → P n.val

/-- No spacing attribute of the object differs from that of its class. -/
def Plain (C : Classes κ η) (o : Obj κ η) : Prop := ∀ n, getProp (C.dflt o.cls) n o.space = C.dflt o.cls n

/-- The head value of the object, given to the constructor, is written in the same way: this fails only if the head was
set to a value that the constructor replaces by one that is written otherwise. -/
def Steady (C : Classes κ η) (o : Obj κ η) : Prop :=
  ∀ v, o.value = some v → C.write o.cls (C.init o.cls v) = C.write o.cls v

/-- The same object, with the spacing of its class. -/
def unspaced (o : Obj κ η) : Obj κ η := { o with space := none }

/-- A tree with `f` applied to every object. -/
def mapTree {α : Type} (f : α → α) (t : Tree α) : Tree α := t.copy f

end Quickly.Copy.Spec
