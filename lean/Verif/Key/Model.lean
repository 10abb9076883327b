import Verif.Pitch.Model

/-!
# Model of `quickly/key.py`

A scale is a nonempty list of rationals (an empty one is replaced by the major
scale, L77).  Notes are the documented 0..6 (0..l-1), so natural numbers; where
the code reduces a note or offset modulo the length, any integer is allowed.
`_int` (L45-48) only turns a whole float into an int and does not change the value.
-/

namespace Quickly.Key

open Quickly.Pitch

/-- `scale[i]` for an index that is in range. -/
def sc (scale : List ℚ) (i : ℕ) : ℚ := scale.getD i 0

/-- `l[i:]`. -/
def sliceFrom {α : Type} (l : List α) (i : ℤ) : List α :=
  if i < 0 then l.drop (l.length + i).toNat else l.drop i.toNat

/-- `l[:i]`. -/
def sliceTo {α : Type} (l : List α) (i : ℤ) : List α :=
  if i < 0 then l.take (l.length + i).toNat else l.take i.toNat

/-- `alterations(offset, scale)`, `quickly/key.py` L51-82. -/
def alterations (offset : ℤ) (scale : List ℚ) : List ℚ :=
  let l := scale.length
  let off := (offset % (l : ℤ)).toNat
  let alter := sc scale off - sc scale 0
  (List.range l).map fun orig =>
    sc scale ((off + orig) % l) + (((off + orig) / l : ℕ) : ℚ) * 6 - sc scale orig - alter

/-- `accidentals(note, alter, mode, scale)`, `quickly/key.py` L85-132. -/
def accidentals (note : ℤ) (alter : ℚ) (mode : Option (List ℚ)) (scale : List ℚ) : List ℚ :=
  let mode := match mode with
    | none => alterations 0 scale
    | some m => m
  let note := note % (scale.length : ℤ)
  let steps := alterations note scale
  let accs := List.zipWith (fun m s => m - s + alter) mode steps
  sliceFrom accs (-note) ++ sliceTo accs (-note)

/-- The loop of `chrom_scale`, `quickly/key.py` L150-157, from `step` on for
`count` steps. -/
def chromLoop (scale flats : List ℚ) : ℕ → ℕ → ℕ → List (ℕ × ℚ)
  | 0, _, _ => []
  | count + 1, step, note =>
    let pitch : ℚ := (step : ℚ) / 2
    let note := if note < scale.length - 1 ∧ (pitch ∈ flats ∨ pitch = sc scale (note + 1))
      then note + 1 else note
    (note, pitch - sc scale note) :: chromLoop scale flats count (step + 1) note

/-- `chromatic_scale(note, alter, scale, flats)`, `quickly/key.py` L135-170. -/
def chromaticScale (note : ℕ) (alter : ℚ) (scale flats : List ℚ) : List (ℕ × ℚ) :=
  let l := scale.length
  let alter := alter + (sc scale note - sc scale 0)
  let notes := (chromLoop scale flats 12 0 0).map fun (n, a) =>
    ((n + note) % l,
      a + alter - (((n + note) / l : ℕ) : ℚ) * 6 - sc scale ((n + note) % l) + sc scale n)
  let semitones := trunc (alter * 2)
  sliceFrom notes (-semitones) ++ sliceTo notes (-semitones)

/-- One round of the loop of `tonic`, `quickly/key.py` L191-194. -/
def tonicStep (d : ℤ) (scale : List ℚ) (na : ℕ × ℚ) : ℕ × ℚ :=
  let l : ℤ := scale.length
  let doct := ((na.1 : ℤ) + d * 4) / l
  let new := (((na.1 : ℤ) + d * 4) % l).toNat
  (new, na.2 + ((d : ℚ) * (7/2) - (doct : ℚ) * 6 - sc scale new + sc scale na.1))

/-- The loop of `tonic`. -/
def tonicLoop (d : ℤ) (scale : List ℚ) : ℕ → ℕ × ℚ → ℕ × ℚ
  | 0, na => na
  | n + 1, na => tonicLoop d scale n (tonicStep d scale na)

/-- `tonic(sf, scale)`, `quickly/key.py` L173-195. -/
def tonic (sf : ℤ) (scale : List ℚ) : ℕ × ℚ :=
  let d : ℤ := if sf > 0 then 1 else if sf < 0 then -1 else 0
  tonicLoop d scale (d * sf).toNat (0, 0)

/-- `mode_offset`, `quickly/key.py` L32-42. -/
def modeOffset : List (String × ℤ) :=
  [("major", 0), ("minor", 5), ("ionian", 0), ("dorian", 1), ("phrygian", 2), ("lydian", 3),
   ("mixolydian", 4), ("aeolian", 5), ("locrian", 6)]

/-- A mode: a name or a list of alterations. -/
inductive Mode
  | name (s : String)
  | list (l : List ℚ)

/-- `KeySignature`, `quickly/key.py` L198-226. -/
structure KeySignature where
  note : ℕ
  alter : ℚ
  scale : List ℚ
  accidentals : List ℚ
  flats : List ℚ := majorFlats

/-- `KeySignature.__init__`, L213-226.  A mode name is looked up with the default
scale, whatever scale is given (L220); an unknown name raises KeyError. -/
def KeySignature.make (note : ℕ) (alter : ℚ) (mode : Mode) (scale : List ℚ) : Py KeySignature :=
  match mode with
  | .list m => .ok ⟨note, alter, scale, Key.accidentals note alter (some m) scale, majorFlats⟩
  | .name s =>
    match modeOffset.lookup s with
    | none => .error .keyError
    | some off => .ok ⟨note, alter, scale,
        Key.accidentals note alter (some (alterations off majorScale)) scale, majorFlats⟩

/-- `steps[step] = (note, alter)` for the notes of the signature, `quickly/key.py`
L335-337. -/
def fillIn (steps : List (ℕ × ℚ)) : ℕ → List (ℚ × ℚ) → List (ℕ × ℚ)
  | _, [] => steps
  | note, (base, alter) :: rest =>
    fillIn (steps.set ((trunc ((base + alter) * 2)) % 12).toNat (note, alter)) (note + 1) rest

/-- The octave lambda, L339. -/
def octaveOf (p : ℚ) : ℤ := if p > 6 then -1 else if p < 0 then 1 else 0

/-- `KeySignature.pitch(key, flats)` with `_midi_reader`, `quickly/key.py`
L233-348.  The cache is not modelled. -/
def KeySignature.pitch (sig : KeySignature) (key : ℤ) (flats : Option (List ℚ)) : Py Pitch :=
  let flats := flats.getD sig.flats
  let steps := fillIn (chromaticScale sig.note sig.alter sig.scale flats) 0
    (sig.scale.zip sig.accidentals)
  match steps[(key % 12).toNat]? with
  | none => .error .indexError
  | some (note, alter) =>
    .ok ⟨key / 12 + (octaveOf ((note : ℚ) + alter) - 5), note, alter⟩

end Quickly.Key
