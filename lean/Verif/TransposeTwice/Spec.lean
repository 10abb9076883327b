import Verif.TransposeBack.Spec

/-! # Which notes can be transposed twice as well as once -/

namespace Quickly.TransposeTwice.Spec

open Quickly.Pitch Quickly.Relative Quickly.Rel2abs

/-- The note has no octave check, it is written as the processor writes its pitch, and the third transposition does to that pitch what the first two do. -/
def Follows (pp : Langs) (tr tr2 tr3 : Pitch → Pitch) (L : Str) (nd : PNode) (chk : Option ℤ) : Prop :=
  chk = none ∧ ∃ p, (pp L).readNode nd = .ok p ∧ (pp L).pitchable p = .ok nd ∧ tr3 p = tr2 (tr p)

end Quickly.TransposeTwice.Spec
