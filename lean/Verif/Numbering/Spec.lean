import Verif.Numbering.Model

/-!
# Specification for numbering

What the numerals, letter names and number names mean, without reference to the
algorithms of the code.
-/

namespace Quickly.Numbering.Spec

/-- The nine standard patterns for one decimal digit in Roman notation, from the
symbols for one, five and ten units; digit 0 is not written. -/
def romanDigit (one five ten : Char) : Nat → List Char
  | 0 => []
  | 1 => [one]
  | 2 => [one, one]
  | 3 => [one, one, one]
  | 4 => [one, five]
  | 5 => [five]
  | 6 => [five, one]
  | 7 => [five, one, one]
  | 8 => [five, one, one, one]
  | 9 => [one, ten]
  | _ => []

/-- The standard Roman numeral: as many M as there are thousands, then the
patterns for hundreds, tens and units. -/
def roman (n : Nat) : List Char :=
  List.replicate (n / 1000) 'M' ++ romanDigit 'C' 'D' 'M' (n / 100 % 10) ++
    romanDigit 'X' 'L' 'C' (n / 10 % 10) ++ romanDigit 'I' 'V' 'X' (n % 10)

/-- How an English number name is read, word by word: `done` is what has been
closed off by "million", `thou` by "thousand", `cur` is being built. -/
def readFrom : List Word → (done thou cur : Nat) → Nat
  | [], d, t, c => d + t + c
  | .to19 i :: ws, d, t, c => readFrom ws d t (c + i)
  | .tens i :: ws, d, t, c => readFrom ws d t (c + 10 * (i + 2))
  | .hundred :: ws, d, t, c => readFrom ws d t (c * 100)
  | .thousand :: ws, d, _, c => readFrom ws d (c * 1000) 0
  | .million :: ws, d, t, c => readFrom ws ((d + t + c) * 1000000) 0 0

/-- The number that a sequence of English number words denotes. -/
def reading (ws : List Word) : Nat := readFrom ws 0 0 0

end Quickly.Numbering.Spec
