import Verif.RhythmTime.Spec

/-!
# Documents that differ in how pitches are written

`Like` says when two documents have the same music but for the pitches, without using the class hierarchy.
-/

namespace Quickly.PitchTime.Spec

open Quickly.Node Quickly.Signature Quickly.Length Quickly.Length.Spec

/-- The nodes with a pitch. -/
def pitched : List Cls := [.Note, .Pitch, .PitchedRest]

/-- The nodes in them that belong to the pitch. -/
def parts : List Cls := [.Octave, .Accidental, .OctCheck]

/-- No negative time is written: no negative duration, and no command that multiplies durations by a negative number. -/
def Forward (n : Nd) : Prop :=
  (n.val.1 ∈ [.Duration, .DurationScaling] → 0 ≤ headValue n) ∧ ∀ t, transform n = .ok (some t) → 0 ≤ t.scale

/-- The nodes of the lists, which are in a node of class `p`, are the same, but for names and octaves of pitches; and in the first list there may be
a `\relative` around music, and `\octaveCheck` commands. -/
inductive Like : Option Cls → List Nd → List Nd → Prop
  | nil (p : Option Cls) : Like p [] []
  | node (p : Option Cls) (l : Cls × Val) (cs ds ts us : List Nd) : Forward (.node l cs) → Like (some l.1) cs ds → Like p ts us →
      Like p (.node l cs :: ts) (.node l ds :: us)
  /-- another name -/
  | pitch (p : Option Cls) (c : Cls) (v w : Val) (cs ds ts us : List Nd) : c ∈ pitched → Like (some c) cs ds → Like p ts us →
      Like p (.node (c, v) cs :: ts) (.node (c, w) ds :: us)
  /-- an octave, accidental sign or octave check that is only in the first note -/
  | left (c : Cls) (y : Nd) (ts us : List Nd) : c ∈ pitched → Silent y → y.val.1 ∈ parts → Like (some c) ts us → Like (some c) (y :: ts) us
  /-- or only in the second -/
  | right (c : Cls) (y : Nd) (ts us : List Nd) : c ∈ pitched → Silent y → y.val.1 ∈ parts → Like (some c) ts us → Like (some c) ts (y :: us)
  /-- an `\octaveCheck` -/
  | check (p : Option Cls) (v : Val) (cs ts us : List Nd) : p ≠ some .Assignment → (∀ y ∈ cs, Silent y) → Like p ts us →
      Like p (.node (.OctaveCheck, v) cs :: ts) us
  /-- a `\relative`, which contains music, and apart from that pitches and comments; it is not directly in `\simultaneous`, which changes what is
  directly in it -/
  | relative (p : Option Cls) (v : Val) (pre : List Nd) (x : Nd) (post : List Nd) (y : Nd) (ts us : List Nd) :
      p ≠ some .Simultaneous → p ≠ some .Chord → (∀ z ∈ pre ++ post, Silent z ∧ z.val.1 ∈ .Pitch :: comments) →
      isA .Music x = true → x.val.1 ∉ pitched → Like (some .Relative) [x] [y] → Like p ts us →
      Like p (.node (.Relative, v) (pre ++ x :: post) :: ts) (y :: us)

/-- The nodes at two places, in lists as in `Like`, are the same but for pitches. -/
inductive Place : Option Cls → List Nd → List Nd → List ℕ → List ℕ → Prop
  | here (p : Option Cls) (ts us : List Nd) (x y : Nd) (ts' us' : List Nd) : Like p ts us → Like p [x] [y] → Like p ts' us' →
      Place p (ts ++ x :: ts') (us ++ y :: us') [ts.length] [us.length]
  | node (p : Option Cls) (ts us : List Nd) (c : Cls) (v w : Val) (cs ds ts' us' : List Nd) (i j : List ℕ) : Like p ts us →
      Like p [.node (c, v) cs] [.node (c, w) ds] → v = w ∨ c ∈ pitched → Place (some c) cs ds i j → Like p ts' us' →
      Place p (ts ++ .node (c, v) cs :: ts') (us ++ .node (c, w) ds :: us') (ts.length :: i) (us.length :: j)
  | relative (p : Option Cls) (ts us : List Nd) (v : Val) (pre : List Nd) (x : Nd) (post : List Nd) (y : Nd) (ts' us' : List Nd) (i j : List ℕ) :
      Like p ts us → Like p [.node (.Relative, v) (pre ++ x :: post)] [y] → p ≠ some .Simultaneous →
      (∀ z ∈ pre ++ post, Silent z ∧ z.val.1 ∈ .Pitch :: comments) → isA .Music x = true → Place (some .Relative) [x] [y] (0 :: i) (0 :: j) →
      Like p ts' us' →
      Place p (ts ++ .node (.Relative, v) (pre ++ x :: post) :: ts') (us ++ y :: us') (ts.length :: pre.length :: i) (us.length :: j)

end Quickly.PitchTime.Spec
