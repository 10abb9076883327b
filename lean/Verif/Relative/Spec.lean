import Verif.Relative.Model
import Verif.Pitch.Spec
import Verif.Transpose.Spec

/-!
# How written music sounds

What the notes in a piece of music mean, as the LilyPond manual tells it: in
absolute music a name and its octave marks; in `\relative` the octave nearest to
the previous note, then moved by the octave marks; in `\fixed` the octave of
the given pitch is added.
-/

namespace Quickly.Relative.Spec

open Quickly.Pitch Quickly.Relative

/-- A note that is heard: its pitch, and the octave that an octave check
(in relative music) demands. -/
structure Heard where
  pitch : Pitch
  check : Option ℤ
  deriving DecidableEq

/-- Read as an absolute pitch: the octave of the name, moved by the octave marks. -/
def AbsNote (t : Tables) (n : Note) (q : Pitch) : Prop :=
  ∃ o, Pitch.Spec.Means (t n.lang) n.node.head o q.note q.alter ∧ q.octave = o + n.node.octave

/-- Read relative to `last`: without its octave marks the pitch is at most
three staff positions (a fourth) away from `last`. -/
def RelNote (t : Tables) (last : Pitch) (n : Note) (h : Heard) : Prop :=
  ∃ o, Pitch.Spec.Means (t n.lang) n.node.head o h.pitch.note h.pitch.alter ∧
    |Pitch.Spec.staff 7 h.pitch - 7 * n.node.octave - Pitch.Spec.staff 7 last| ≤ 3 ∧
    h.check = n.check.map (fun c => o + c)

/-- The notes of a chord, each relative to the one before it. -/
inductive RelChord (t : Tables) : Pitch → List Note → List Heard → Prop
  | nil (last) : RelChord t last [] []
  | cons {last n h ns hs} : RelNote t last n h → RelChord t h.pitch ns hs →
      RelChord t last (n :: ns) (h :: hs)

/-- How the notes are to be read: as absolute pitches to which `k` octaves are
added, or relative to the last pitch. -/
inductive Mode
  | abs (k : ℤ)
  | rel (last : Pitch)

/-- Whether the notes are read relative to each other. -/
def Mode.isRel : Mode → Bool
  | .abs _ => false
  | .rel _ => true

/-- The reference of a chord for the next note: its first note. -/
def firstOf (last : Pitch) : List Heard → Pitch
  | [] => last
  | h :: _ => h.pitch

/-- `Hears t f m ms m' hs`: read in mode `m`, the music `ms` sounds as `hs` and leaves
mode `m'`.  `f` tells what `\relative` without a start pitch is relative to. -/
inductive Hears (t : Tables) (f : Pitch) : Mode → List Mus → Mode → List Heard → Prop
  | nil (m) : Hears t f m [] m []
  | noteAbs {k n q ms m' hs} : AbsNote t n q → Hears t f (.abs k) ms m' hs →
      Hears t f (.abs k) (.note n :: ms) m' (⟨{q with octave := q.octave + k}, none⟩ :: hs)
  | noteRel {last n h ms m' hs} : RelNote t last n h → Hears t f (.rel h.pitch) ms m' hs →
      Hears t f (.rel last) (.note n :: ms) m' (h :: hs)
  | chordAbs {k ns qs ms m' hs} : List.Forall₂ (AbsNote t) ns qs → Hears t f (.abs k) ms m' hs →
      Hears t f (.abs k) (.chord ns :: ms) m'
        (qs.map (fun q => ⟨{q with octave := q.octave + k}, none⟩) ++ hs)
  | chordRel {last ns cs ms m' hs} : RelChord t last ns cs →
      Hears t f (.rel (firstOf last cs)) ms m' hs →
      Hears t f (.rel last) (.chord ns :: ms) m' (cs ++ hs)
  | checkAbs {k n q ms m' hs} : AbsNote t n q → Hears t f (.abs k) ms m' hs →
      Hears t f (.abs k) (.check n :: ms) m' hs
  | checkRel {last n q ms m' hs} : AbsNote t n q → Hears t f (.rel q) ms m' hs →
      Hears t f (.rel last) (.check n :: ms) m' hs
  | key {m n ms m' hs} : Hears t f m ms m' hs → Hears t f m (.key n :: ms) m' hs
  | group {m inner m1 is ms m' hs} : Hears t f m inner m1 is → Hears t f m1 ms m' hs →
      Hears t f m (.group inner :: ms) m' (is ++ hs)
  | relativeFrom {m s q inner m1 is ms m' hs} : AbsNote t s q →
      Hears t f (.rel q) inner m1 is → Hears t f m ms m' hs →
      Hears t f m (.relative (some s) inner :: ms) m' (is ++ hs)
  | relative {m inner m1 is ms m' hs} :
      Hears t f (.rel f) inner m1 is → Hears t f m ms m' hs →
      Hears t f m (.relative none inner :: ms) m' (is ++ hs)
  | fixed {m s q inner m1 is ms m' hs} : AbsNote t s q →
      Hears t f (.abs (q.octave + 1)) inner m1 is → Hears t f m ms m' hs →
      Hears t f m (.fixed s inner :: ms) m' (is ++ hs)
  | absolute {m inner m1 is ms m' hs} :
      Hears t f (.abs 0) inner m1 is → Hears t f m ms m' hs →
      Hears t f m (.absolute inner :: ms) m' (is ++ hs)
  /-- the notes in a `\transpose`, as they are written, or in a `\chordmode`; `\relative` does not affect them -/
  | apartAbs {k kind as inner m1 is ms m' hs} :
      Hears t f (.abs k) inner m1 is → Hears t f (.abs k) ms m' hs →
      Hears t f (.abs k) (.apart kind as inner :: ms) m' (is ++ hs)
  | apartRel {last kind as inner m1 is ms m' hs} :
      Hears t f (.abs 0) inner m1 is → Hears t f (.rel last) ms m' hs →
      Hears t f (.rel last) (.apart kind as inner :: ms) m' (is ++ hs)

/-- A whole document sounds as `ps`: it starts in absolute mode. -/
def Sounds (t : Tables) (f : Pitch) (ms : List Mus) (hs : List Heard) : Prop :=
  ∃ m, Hears t f (.abs 0) ms m hs

/-- The first note without a start pitch is relative to f (so it is absolute), or
to c' in old LilyPond. -/
def reference (firstAbs : Bool) : Pitch := if firstAbs then ⟨-1, 3, 0⟩ else ⟨0, 0, 0⟩

/-- All names of the language are in the same octave. -/
def OneOctave (t : Table) : Prop := ∃ d, ∀ item ∈ t, item.2.1 = d

/-- `tr` is what the transposer does. -/
def Runs (t : Transpose.Transposer) (tr : Pitch → Pitch) : Prop := ∀ p, Transpose.Spec.Yields t p (tr p)

/-- What a pitch in the music is for. -/
inductive Kind
  | note | octaveCheck | key | start | fixed | argument
  deriving DecidableEq

mutual
/-- Everything with a pitch in the music, and what it is for. -/
def parts : Mus → List (Kind × Note)
  | .note n => [(.note, n)]
  | .chord ns => ns.map (fun n => (.note, n))
  | .check n => [(.octaveCheck, n)]
  | .key n => [(.key, n)]
  | .group ms => partsL ms
  | .relative none ms => partsL ms
  | .relative (some s) ms => (.start, s) :: partsL ms
  | .fixed s ms => (.fixed, s) :: partsL ms
  | .absolute ms => partsL ms
  | .apart _ as ms => as.map (fun n => (.argument, n)) ++ partsL ms
/-- The same for a list. -/
def partsL : List Mus → List (Kind × Note)
  | [] => []
  | m :: ms => parts m ++ partsL ms
end

/-- The pitches that are heard. -/
def pitches (hs : List Heard) : List Pitch := hs.map Heard.pitch

mutual
/-- There is no `\relative` in the music. -/
def NoRelative : Mus → Prop
  | .note _ | .chord _ | .check _ | .key _ => True
  | .group ms => NoRelativeL ms
  | .relative _ _ => False
  | .fixed _ ms => NoRelativeL ms
  | .absolute ms => NoRelativeL ms
  | .apart _ _ ms => NoRelativeL ms
/-- The same for a list. -/
def NoRelativeL : List Mus → Prop
  | [] => True
  | m :: ms => NoRelative m ∧ NoRelativeL ms
end

mutual
/-- There is no `\relative` inside a `\fixed`. -/
def FixedPlain : Mus → Prop
  | .note _ | .chord _ | .check _ | .key _ => True
  | .group ms => FixedPlainL ms
  | .relative _ ms => FixedPlainL ms
  | .fixed _ ms => NoRelativeL ms
  | .absolute ms => FixedPlainL ms
  | .apart _ _ ms => FixedPlainL ms
/-- The same for a list. -/
def FixedPlainL : List Mus → Prop
  | [] => True
  | m :: ms => FixedPlain m ∧ FixedPlainL ms
end

mutual
/-- Where notes are read relative to each other (`rel`), and not in a `\relative` or so inside of that, there are no commands
that `\relative` does not affect, other than `ok`. -/
def ApartOk (ok : Apart → Prop) (rel : Bool) : Mus → Prop
  | .note _ | .chord _ | .check _ | .key _ => True
  | .group ms => ApartOkL ok rel ms
  | .relative _ ms => ApartOkL ok true ms
  | .fixed _ ms => ApartOkL ok false ms
  | .absolute ms => ApartOkL ok false ms
  | .apart kind _ ms => (rel = true → ok kind) ∧ ApartOkL ok false ms
/-- The same for a list. -/
def ApartOkL (ok : Apart → Prop) (rel : Bool) : List Mus → Prop
  | [] => True
  | m :: ms => ApartOk ok rel m ∧ ApartOkL ok rel ms
end

mutual
/-- Music without chords, octave checks, `\relative` and `\chordmode`, other than in
`\fixed`, `\absolute` and `\transpose`. -/
def Melody : Mus → Prop
  | .note _ | .key _ | .fixed _ _ | .absolute _ => True
  | .chord _ | .check _ | .relative _ _ => False
  | .group ms => MelodyL ms
  | .apart kind _ _ => kind = .transpose
/-- The same for a list. -/
def MelodyL : List Mus → Prop
  | [] => True
  | m :: ms => Melody m ∧ MelodyL ms
end

end Quickly.Relative.Spec
