import Verif.TransposeAbs.Spec
import Verif.RoundTrip.Spec

/-! # Documents that can be converted to relative music, transposed and converted back -/

namespace Quickly.TransposeTrip.Spec

open Quickly.Abs2rel (Doc)
open Quickly.Abs2rel.Spec (StillL toDocs)
open Quickly.TransposeAbs.Spec (AptL)

mutual
/-- In the music that is converted there is no `\transpose`, and notes have no octave check; and there is no such music in `\fixed`. -/
def Meet : Doc → Prop
  | .node .list ks => ((∃ k ∈ ks, k.isNote = true) → AptL true (toDocs ks)) ∧ ((∀ k ∈ ks, k.isNote = false) → MeetL ks)
  | .node (.lab .chordmode) ks => AptL true (toDocs ks)
  | .node (.lab (.skip .fixed)) ks => StillL ks
  | .node (.lab _) ks => MeetL ks
/-- The same for a list. -/
def MeetL : List Doc → Prop
  | [] => True
  | k :: ks => Meet k ∧ MeetL ks
end

end Quickly.TransposeTrip.Spec
