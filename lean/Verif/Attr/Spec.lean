import Verif.Attr.Model
import Verif.Add.Spec

/-! # What the attributes of a note should be: four independent variables -/

namespace Quickly.Attr.Spec

/-- The visible attributes: `dur` is `duration_scaling`; it is none if there is no duration. -/
structure Attrs where
  octave : ℤ
  accidental : Option Acc
  octCheck : Option ℤ
  dur : Option (ℚ × ℚ)
deriving DecidableEq, Repr

variable (lim : ℚ → ℚ)

/-- The scaling that is meant by a value: `None` means no scaling. -/
def scale : Option Num → ℚ
  | none => 1
  | some v => v.head lim

/-- Setting the scaling to something else than `None` or 1 needs a duration. -/
def scaleStep (v : Option Num) (a : Attrs) : Attrs × Option PyErr :=
  match a.dur with
  | some (d, _) => ({ a with dur := some (d, scale lim v) }, none)
  | none => (a, if v = none ∨ v.map Num.val = some 1 then none else some .valueError)

/-- A new duration keeps the existing scaling; no duration means no scaling. -/
def durStep (v : Option Num) (a : Attrs) : Attrs :=
  { a with dur := v.map fun v => (v.head lim, (a.dur.map Prod.snd).getD 1) }

/-- What an operation does with the variables. -/
def step (a : Attrs) : Op → Attrs × Option PyErr
  | .setDuration v => (durStep lim v a, none)
  | .delDuration => ({ a with dur := none }, none)
  | .setScaling v => scaleStep lim v a
  | .delScaling => scaleStep lim none a
  | .setDurationScaling none => ({ a with dur := none }, none)
  | .setDurationScaling (some (d, s)) => scaleStep lim s (durStep lim d a)
  | .delDurationScaling => ({ a with dur := none }, none)
  | .setOctave n => ({ a with octave := n }, none)
  | .delOctave => ({ a with octave := 0 }, none)
  | .setAccidental v => ({ a with accidental := v }, none)
  | .delAccidental => ({ a with accidental := none }, none)
  | .setOctCheck n => ({ a with octCheck := n }, none)
  | .delOctCheck => ({ a with octCheck := none }, none)

/-- A history. -/
def run (a : Attrs) : List Op → Attrs × List (Option PyErr)
  | [] => (a, [])
  | op :: ops => ((run (step lim a op).1 ops).1, (step lim a op).2 :: (run (step lim a op).1 ops).2)

/-- The attributes an element shows. -/
def read (e : Elem) : Attrs :=
  ⟨getOctave e.children, getAccidental e.children, getOctCheck e.children,
   getDurationScaling e.children⟩

/-- There is at most one child of every class that stores an attribute (this is so for every
element that is read from a document). -/
def Single (e : Elem) : Prop :=
  (∀ k : Cls, (∀ k', k ≠ .kind k') → (e.children.filter (isa · k)).length ≤ 1) ∧
  ∀ h s, Child.duration h s ∈ e.children →
    (s.filter Sub.isScaling).length ≤ 1

/-- The children that do not store an attribute. -/
def others (e : Elem) : List (Kind × ℕ) :=
  e.children.filterMap fun c => match c with | .other k i => some (k, i) | _ => none

/-- What LilyPond wants to see before the duration: octave, accidental and octave check of a pitch, the notes of a
chord, the text of a lyric or a tempo, the fraction of a tuplet. -/
def before : Owner → List Cls
  | .note | .pitch | .pitchedRest => [.octave, .accidental, .octCheck]
  | .chord => [.kind .chordBody]
  | .lyricItem => [.kind .lyric]
  | .tempo => [.kind .text]
  | .tuplet => [.kind .fraction]
  | _ => []

/-- What comes after the duration: the rest modifier, the articulations and a comment at the end; the `=` and number of a
tempo; the music of a tuplet. -/
def after : Owner → List Cls
  | .tempo => [.kind .equalSign, .kind .int]
  | .tuplet => [.kind .music]
  | .partial_ | .after => []
  | o => (if o = .pitchedRest then [.kind .restModifier] else []) ++
    (if o ∈ [.note, .chord, .unpitched, .rest, .pitchedRest, .space, .q, .drum] then [.kind .articulations] else []) ++
    [.kind .comment]

/-- The order of the children; the children of `\partial` and `\after` can have any order. -/
def order (o : Owner) : List Cls :=
  before o ++ (if o ∈ [.pitch, .partial_, .after] then [] else [.duration]) ++ after o

/-- The children are in the order of the element. -/
def Ordered (e : Elem) : Prop := Add.Spec.Respects isa (order e.owner) e.children

end Quickly.Attr.Spec
