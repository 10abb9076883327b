import Verif.Key.Model

/-! # Specification vocabulary for key signatures -/

namespace Quickly.Key.Spec

open Quickly.Key Quickly.Pitch

/-- The height in whole tones of step `n`, counting on past the octave, in a
scale that repeats every 6 whole tones. -/
def degree (scale : List ℚ) (n : ℕ) : ℚ :=
  sc scale (n % scale.length) + 6 * ((n / scale.length : ℕ) : ℚ)

/-- A multiple of a half (whole semitones, no quarter tones). -/
def Half (x : ℚ) : Prop := ∃ k : ℤ, x = (k : ℚ) / 2

/-- Position of each white key C D E F G A B in the order in which sharps are
added to a signature: F C G D A E B. -/
def sharpOrder : List ℤ := [1, 3, 5, 0, 2, 4, 6]

/-- The accidental of note `i` in a signature with `sf` sharps (negative:
flats): one sharp for each time the order of sharps has passed the note. -/
def signature (sf : ℤ) (i : ℕ) : ℚ := (((sf + 6 - sharpOrder.getD i 0) / 7 : ℤ) : ℚ) / 2

/-- The pitch values of the black keys. -/
def black : List ℚ := [1/2, 3/2, 3, 4, 5]

end Quickly.Key.Spec

namespace Quickly.Key.Spec

open Quickly.Key Quickly.Pitch

/-- The modes, with the white key on which each has no sharps or flats, as a number of fifths above C: D dorian, E
phrygian and so on. -/
def modes : List (String × ℤ) :=
  [("major", 0), ("ionian", 0), ("dorian", 2), ("phrygian", 4), ("lydian", -1), ("mixolydian", 1),
   ("minor", 3), ("aeolian", 3), ("locrian", 5)]

/-- The name of a mode, or a list of seven alterations without quarter
tones. -/
def GoodMode : Mode → Prop
  | .name s => s ∈ modes.map Prod.fst
  | .list m => m.length = 7 ∧ ∀ x ∈ m, Half x

end Quickly.Key.Spec
