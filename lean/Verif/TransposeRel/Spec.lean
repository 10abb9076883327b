import Verif.Abs2rel.SpecRange

/-! # Documents for which it does not matter whether they are transposed before or after they are converted to relative music -/

namespace Quickly.TransposeRel.Spec

open Quickly.Abs2rel (Doc)
open Quickly.Abs2rel.Spec (Still StillL)

mutual
/-- Music without chords, `\octaveCheck`, `\relative`, `\transpose` and notes with an octave check. -/
def Music : Doc → Prop
  | .node (.lab .chord) _ => False
  | .node (.lab .check) _ => False
  | .node (.lab .relative) _ => False
  | .node (.lab (.skip .transpose)) _ => False
  | .node (.lab (.skip _)) _ => True
  | .node (.lab (.language _)) _ => True
  | .node (.lab (.note _ _ chk)) _ => chk = none
  | .node _ ks => MusicL ks
/-- The same for a list. -/
def MusicL : List Doc → Prop
  | [] => True
  | k :: ks => Music k ∧ MusicL ks
end

mutual
/-- What is converted is such music, and there is nothing to convert in `\fixed`, `\key` and so on, and in the pitches of `\transpose`. -/
def Fair : Doc → Prop
  | .node .list ks => ((∃ k ∈ ks, k.isNote = true) → MusicL ks) ∧ ((∀ k ∈ ks, k.isNote = false) → FairL ks)
  | .node (.lab .chordmode) ks => MusicL ks
  | .node (.lab .relative) _ => True
  | .node (.lab (.language _)) ks => StillL ks
  | .node (.lab (.skip .fixed)) ks => StillL ks
  | .node (.lab (.skip .key)) ks => StillL ks
  | .node (.lab (.skip .silent)) ks => StillL ks
  | .node (.lab (.skip .transpose)) ks => (∀ k ∈ ks.take 2, Still k) ∧ FairL ks
  | .node (.lab _) ks => FairL ks
/-- The same for a list. -/
def FairL : List Doc → Prop
  | [] => True
  | k :: ks => Fair k ∧ FairL ks
end

mutual
/-- The trees have music lists (`lily.MusicList`) in the same places. -/
def Alike : Doc → Doc → Prop
  | .node l ks, .node l' ks' => (l = .list ↔ l' = .list) ∧ AlikeL ks ks'
/-- The same for lists. -/
def AlikeL : List Doc → List Doc → Prop
  | [], [] => True
  | k :: ks, k' :: ks' => Alike k k' ∧ AlikeL ks ks'
  | _, _ => False
end

end Quickly.TransposeRel.Spec
