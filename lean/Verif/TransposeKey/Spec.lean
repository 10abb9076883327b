import Verif.Relative.Spec
import Verif.Key.Model
import Verif.Transpose.Spec

/-! # Specification vocabulary for notes in a key -/

namespace Quickly.TransposeKey.Spec

open Quickly.Pitch Quickly.Key Quickly.Relative Quickly.Relative.Spec

/-- The pitch is altered by `x` more than the key signature says: a performer sees an accidental unless `x` is 0. -/
def Differs (s : KeySignature) (p : Pitch) (x : ℚ) : Prop :=
  ∃ a, s.accidentals[p.note.toNat]? = some a ∧ p.alter = a + x

/-- The pitch is in the key. -/
def InKey (s : KeySignature) (p : Pitch) : Prop := Differs s p 0

/-- A mode that has a value for each of the seven notes: a name, or a list of seven alterations. -/
def Full : Key.Mode → Prop
  | .name _ => True
  | .list l => l.length = 7

/-- `q` is `p` moved by the staff positions of the interval, and not written with another note name. -/
def SameSteps (t : Transpose.Transposer) (p q : Pitch) : Prop :=
  Transpose.Spec.staff q = Transpose.Spec.staff p + Transpose.Spec.moves t

/-- No accidental of the key signature is more than a double sharp or flat. -/
def Writable (s : KeySignature) : Prop := ∀ a ∈ s.accidentals, -1 ≤ a ∧ a ≤ 1

/-- The same note name and alteration. -/
def SameName (p q : Pitch) : Prop := p.note = q.note ∧ p.alter = q.alter

/-- `y` is what became of `x`: it is for the same and in the same language.  If it may be changed it is the
transposed note apart from the octave, and otherwise what it was. -/
def Became (pp : Langs) (tr : Pitch → Pitch) (x y : Kind × Note) : Prop :=
  y.1 = x.1 ∧ y.2.lang = x.2.lang ∧ y.2.writable = x.2.writable ∧
    (x.2.writable = true → ∃ p q, (pp x.2.lang).readNode x.2.node = .ok p ∧ (pp y.2.lang).readNode y.2.node = .ok q ∧ SameName q (tr p)) ∧
    (x.2.writable = false → y.2 = x.2)

end Quickly.TransposeKey.Spec
