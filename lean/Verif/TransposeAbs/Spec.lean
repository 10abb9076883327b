import Verif.TransposeDoc.Spec
import Verif.Rel2abs.Spec

/-! # Documents for which it does not matter whether they are transposed before or after they are converted to absolute music -/

namespace Quickly.TransposeAbs.Spec

open Quickly.Rel2abs Quickly.Rel2abs.Spec

mutual
/-- There is no `\relative` in `\fixed`; and in `\relative` (`rel`) there is no `\transpose`, and notes have no octave check. -/
def Apt (rel : Bool) : Doc → Prop
  | .node _ (.note _ _ chk) ks => (rel = true → chk = none) ∧ AptL false ks
  | .node _ .relative ks => AptL true ks
  | .node _ (.skip .fixed) ks => NoRelL ks
  | .node _ (.skip .transpose) ks => rel = false ∧ AptL false ks
  | .node _ (.skip _) ks => AptL false ks
  | .node _ _ ks => AptL rel ks
/-- The same for a list. -/
def AptL (rel : Bool) : List Doc → Prop
  | [] => True
  | k :: ks => Apt rel k ∧ AptL rel ks
end

end Quickly.TransposeAbs.Spec
