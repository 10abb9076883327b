import Verif.Duration.Model

/-!
# Specification for durations

What a note length with dots is worth, and which rationals a double can hold.
-/

namespace Quickly.Duration.Spec

/-- The length of a note with the given log (0 whole note, 1 half note, -1 breve,
...) and number of dots: the first dot adds half the length, every next dot half
of what the previous one added. -/
def value (log : ℤ) : ℕ → ℚ
  | 0 => (2 : ℚ) ^ (-log)
  | d + 1 => value log d + (2 : ℚ) ^ (-log - (d + 1 : ℤ))

/-- `q` is exactly representable with 53 significant bits. -/
def IsDouble (q : ℚ) : Prop := ∃ (k e : ℤ), |k| < 2 ^ 53 ∧ q = (k : ℚ) * 2 ^ e

end Quickly.Duration.Spec
