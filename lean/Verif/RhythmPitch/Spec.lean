import Verif.RhythmEdits.Spec
import Verif.PitchTime.View

/-!
# What is left of music without the pitches
-/

namespace Quickly.RhythmPitch.Spec

open Quickly.Node Quickly.Signature Quickly.Length
open Quickly.RhythmTime.Spec (timed)
open Quickly.PitchTime.Spec (pitched parts)

/-- A node in a note (if `p`) that belongs to its pitch: an octave, an accidental sign or an octave check. -/
def ofPitch (p : Bool) (c : Nd) : Bool := p && decide (c.val.1 ∈ parts) && c.children.isEmpty

mutual
/-- A node without the names of pitches in it, and without their octaves, accidental signs and octave checks. -/
def bare : Nd → Nd
  | .node l cs => .node (if l.1 ∈ pitched then (l.1, .text "") else l) (bareL (decide (l.1 ∈ pitched)) cs)
/-- The same for a list of nodes; `p` tells whether they are in a node with a pitch. -/
def bareL (p : Bool) : List Nd → List Nd
  | [] => []
  | c :: cs => if ofPitch p c then bareL p cs else bare c :: bareL p cs
end

mutual
/-- No node with a pitch has a child that can have a duration itself, such as another note. -/
def Plain : Nd → Prop
  | .node l cs => (l.1 ∈ pitched → ∀ c ∈ cs, c.val.1 ∉ timed) ∧ PlainL cs
/-- The same for a list of nodes. -/
def PlainL : List Nd → Prop
  | [] => True
  | c :: cs => Plain c ∧ PlainL cs
end

open Quickly.PitchTime.Spec (View) in
mutual
/-- What the pitch edits take for a note has a pitch, and its octave and octave check are parts of a pitch, with nothing in them. -/
def Notes (w : View) : Rel2abs.Doc → Prop
  | .node i l ks => (∀ b n chk, l = .note b n chk → (w.lab i).1 ∈ pitched ∧ ∀ n chk, ∀ y ∈ w.parts i n chk, y.val.1 ∈ parts ∧ y.children = []) ∧
      NotesL w ks
/-- The same for a list of nodes. -/
def NotesL (w : View) : List Rel2abs.Doc → Prop
  | [] => True
  | k :: ks => Notes w k ∧ NotesL w ks
end

end Quickly.RhythmPitch.Spec
