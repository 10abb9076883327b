import Verif.Space.Model

/-!
# What spacing attributes should do

The value of attribute `n` after a history is found by walking back through the history to
the last statement about `n`.
-/

namespace Quickly.Space.Spec

variable {ν : Type}

/-- The value of `n` after a history given with the most recent statement first. -/
def recent (dflt : Name → ν) (n : Name) : List (Op ν) → ν
  | [] => dflt n
  | .set m v :: earlier => if m = n then v else recent dflt n earlier
  | .del m :: earlier => if m = n then dflt n else recent dflt n earlier

/-- The value of `n` after a history in chronological order. -/
def value (dflt : Name → ν) (n : Name) (ops : List (Op ν)) : ν := recent dflt n ops.reverse

end Quickly.Space.Spec
