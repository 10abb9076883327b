import Verif.Transpose.Model

/-! # Specification vocabulary for transposing -/

namespace Quickly.Transpose.Spec

open Quickly.Pitch Quickly.Key Quickly.Transpose

/-- The sounding height of a pitch in whole tones. -/
def height (scale : List ℚ) (p : Pitch) : ℚ := 6 * p.octave + at' scale p.note + p.alter

/-- The position on the staff. -/
def staff (p : Pitch) : ℤ := 7 * p.octave + p.note

/-- A pitch with a real note name. -/
def Valid (p : Pitch) : Prop := 0 ≤ p.note ∧ p.note < 7

/-- The interval of a transposer in whole tones. -/
def interval (t : Transposer) : ℚ := 6 * t.octave + t.alter

/-- The interval of a transposer in staff positions. -/
def moves (t : Transposer) : ℤ := 7 * t.octave + t.steps

/-- `q` is what transposing `p` with `t` gives, however long the loops take. -/
def Yields (t : Transposer) (p q : Pitch) : Prop := ∃ fuel, t.transpose fuel p = some (.ok q)

/-- A scale in which no step, the one to the next octave included, is wider than
two whole tones. -/
def Narrow (scale : List ℚ) : Prop :=
  ∀ n : ℤ, 0 ≤ n → n < 7 →
    ((n + 1) / 7 : ℤ) * 6 + at' scale ((n + 1) % 7) - at' scale n ≤ 2

/-- The transposer with the scale filled in that `__add__` and `__sub__` forget. -/
def withScale (scale : List ℚ) (t : Transposer) : Transposer := { t with scale := some scale }

end Quickly.Transpose.Spec
