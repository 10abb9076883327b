import Verif.Datatypes.Model

/-!
# Specification of Properties: partial functions from names to values

`none` means that the name is absent, `some none` that it is present with value None.
-/

namespace Quickly.Datatypes.Spec

variable {κ β : Type} [DecidableEq κ]

/-- A set of properties as a partial function. -/
abbrev Props (κ β : Type) := κ → Option (Option β)

/-- The properties named in a keyword list; a later item wins. -/
def ofList : List (κ × Option β) → Props κ β
  | [] => fun _ => none
  | (k, v) :: l => fun k' =>
    match ofList l k' with
    | some w => some w
    | none => if k' = k then some v else none

/-- Effect of one statement on the list of property sets. -/
def step (s : List (Props κ β)) : Op κ β → List (Props κ β)
  | .new kw => s ++ [ofList kw]
  | .set o k v => s.mapIdx (fun i p => if i = o then (fun k' => if k' = k then some v else p k') else p)
  | .del o k => s.mapIdx (fun i p => if i = o then (fun k' => if k' = k then none else p k') else p)
  | .add a b =>
    match s[a]?, s[b]? with
    | some p, some q => s ++ [fun k => if (q k).isSome then q k else p k]
    | _, _ => s

/-- Run a program on property sets. -/
def run (ops : List (Op κ β)) : List (Props κ β) := ops.foldl step []

end Quickly.Datatypes.Spec
