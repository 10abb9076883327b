import Verif.Key.Model

/-!
# Model of `Transposer` in `quickly/transpose.py`

The notes of pitches are the documented 0..6 and the scale has seven values;
for other notes Python would raise IndexError or wrap around, which is not
modelled.
-/

namespace Quickly.Transpose

open Quickly.Pitch Quickly.Key

/-- `scale[note]` for a note in 0..6. -/
def at' (scale : List ℚ) (note : ℤ) : ℚ := sc scale note.toNat

/-- The attributes of a `Transposer`, `quickly/transpose.py` L54-67.  `scale` is
None when the attribute is missing, which is the case for the results of
`__add__` and `__sub__` (they are made with `__new__` and never get it). -/
structure Transposer where
  scale : Option (List ℚ)
  octave : ℤ
  steps : ℤ
  alter : ℚ
  deriving DecidableEq

/-- `Transposer.__init__`, `quickly/transpose.py` L54-67. -/
def Transposer.make (a b : Pitch) (scale : List ℚ) : Transposer where
  scale := some scale
  octave := b.octave - a.octave
  steps := b.note - a.note
  alter := at' scale b.note + b.alter - at' scale a.note - a.alter

/-- The first part of `transpose`, L74-77. -/
def plain (scale : List ℚ) (t : Transposer) (p : Pitch) : Pitch :=
  let doct := (p.note + t.steps) / 7
  let note := (p.note + t.steps) % 7
  { alter := p.alter + (t.alter - doct * 6 - at' scale note + at' scale p.note)
    octave := p.octave + (t.octave + doct)
    note := note }

/-- The body of the first while loop, L80-83. -/
def stepUp (scale : List ℚ) (p : Pitch) : Pitch :=
  let doct := (p.note + 1) / 7
  let note := (p.note + 1) % 7
  { alter := p.alter - (doct * 6 + at' scale note - at' scale p.note)
    octave := p.octave + doct
    note := note }

/-- The body of the second while loop, L85-88. -/
def stepDown (scale : List ℚ) (p : Pitch) : Pitch :=
  let doct := (p.note - 1) / 7
  let note := (p.note - 1) % 7
  { alter := p.alter + (doct * -6 + at' scale p.note - at' scale note)
    octave := p.octave + doct
    note := note }

/-- `while cond: body`, run for at most `fuel` rounds; None when it has not
finished by then. -/
def loop {σ : Type} (cond : σ → Bool) (body : σ → σ) : ℕ → σ → Option σ
  | 0, s => if cond s then none else some s
  | n + 1, s => if cond s then loop cond body n (body s) else some s

/-- The two while loops, L79-88. -/
def respell (scale : List ℚ) (fuel : ℕ) (p : Pitch) : Option Pitch :=
  match loop (fun p => decide (p.alter > 1)) (stepUp scale) fuel p with
  | none => none
  | some p => loop (fun p => decide (p.alter < -1)) (stepDown scale) fuel p

/-- `transpose(pitch)`, `quickly/transpose.py` L73-88: the pitch afterwards, or
AttributeError when the transposer has no scale; None when the loops need more
than `fuel` rounds. -/
def Transposer.transpose (t : Transposer) (fuel : ℕ) (p : Pitch) : Option (Py Pitch) :=
  match t.scale with
  | none => some (.error .attributeError)
  | some scale =>
    match respell scale fuel (plain scale t p) with
    | none => none
    | some q => some (.ok q)

/-- `__add__`, `quickly/transpose.py` L90-95. -/
def Transposer.add (s t : Transposer) : Transposer where
  scale := none
  steps := (s.steps + t.steps) % 7
  octave := s.octave + t.octave + (s.steps + t.steps) / 7
  alter := s.alter + t.alter - ((s.steps + t.steps) / 7 : ℤ) * 6

/-- `__sub__`, `quickly/transpose.py` L97-102. -/
def Transposer.sub (s t : Transposer) : Transposer where
  scale := none
  steps := (s.steps - t.steps) % 7
  octave := s.octave - t.octave + (s.steps - t.steps) / 7
  alter := s.alter - t.alter + ((s.steps - t.steps) / 7 : ℤ) * 6

end Quickly.Transpose
