import Verif.Pitch.Model

/-!
# Specification vocabulary for pitches

What the words of the properties C11-C18 mean, without reference to how the
code computes them.
-/

namespace Quickly.Pitch.Spec

open Quickly.Pitch

/-- The vertical position on the staff, in steps, with `l` steps per octave. -/
def staff (l : ℕ) (p : Pitch) : ℤ := l * p.octave + p.note

/-- The words that name rests and the like in every language. -/
def agnostic : List Str := [['r'], ['R'], ['s'], ['q']]

/-- A table has a name. -/
def HasName (t : Table) (name : Str) : Prop := ∃ v, (name, v) ∈ t

/-- The table is a dictionary: no name occurs twice. -/
def IsDict (t : Table) : Prop := (t.map Prod.fst).Nodup

/-- A table has a name that means `(octave, note, alter)`. -/
def Means (t : Table) (name : Str) (octave note : ℤ) (alter : ℚ) : Prop :=
  (name, (octave, note, alter)) ∈ t

/-- `pn` is a dictionary of languages and the identity of a table object
determines the table. -/
structure WellFormed (pn : Names) : Prop where
  nodup : (pn.map Prod.fst).Nodup
  ident : ∀ a ∈ pn, ∀ b ∈ pn, a.2.1 = b.2.1 → a.2.2 = b.2.2
  main : ∀ a ∈ pn, ∀ b ∈ pn, a.1 ∈ ubiquitous ++ exotic → b.1 ∈ ubiquitous ++ exotic →
    a.2.1 = b.2.1 → a.1 = b.1

/-- Language `lang` knows every one of the names, the agnostic ones aside. -/
def Knows (pn : Names) (names : List Str) (lang : Str) : Prop :=
  ∃ i t, (lang, i, t) ∈ pn ∧ ∀ n ∈ names, n ∉ agnostic → HasName t n

/-- Two languages are synonyms: they share one table object. -/
def Synonyms (pn : Names) (a b : Str) : Prop :=
  ∃ i t u, (a, i, t) ∈ pn ∧ (b, i, u) ∈ pn

end Quickly.Pitch.Spec

namespace Quickly.Pitch.Spec

open Quickly.Pitch

/-- The spelling preference of the languages with one criterion, in words:
nederlands: `prefer_classic` asks for es, eses, as, ases; catalan, deutsch,
suomi: `prefer_deprecated` asks for the deprecated names; espanol: `prefer_x`
asks for names ending in x; english with `prefer_long` asks for a hyphen. -/
def Preferred (lang : Lang) (pr : Prefs) (name : Str) : Prop :=
  match lang with
  | .nederlands => pr.classic = true ↔ name ∈ ["es".toList, "eses".toList, "as".toList, "ases".toList]
  | .catalan => pr.deprecated = true ↔ ∃ stem, name = stem ++ ['s']
  | .deutsch => pr.deprecated = true ↔ name ∈ ["eeh".toList, "ases".toList, "aseh".toList, "aeh".toList]
  | .suomi => pr.deprecated = true ↔ name ∈ ["ases".toList, "bb".toList, "heses".toList]
  | .espanol => pr.x = true ↔ ∃ stem, name = stem ++ ['x']
  | .english => if pr.long then '-' ∈ name else
      '-' ∉ name ∧ (pr.x = true ↔ ∃ stem, name = stem ++ ['x'])
  | _ => False

/-- The first preference of a language with two: in français an accent where the accented
names are preferred, in norsk a double s where that is preferred (and none otherwise). -/
def First (lang : Lang) (pr : Prefs) (name : Str) : Prop :=
  match lang with
  | .francais => pr.accented = true ↔ 'é' ∈ name
  | .norsk => pr.doubleS = true ↔ ∃ a b, name = a ++ "ss".toList ++ b
  | _ => False

/-- The second preference: in français an x at the end, in norsk the names with ee or ae
(that the code calls these classic is the other way round, `C15_norsk_prefer_classic_inverted`). -/
def Second (lang : Lang) (pr : Prefs) (name : Str) : Prop :=
  match lang with
  | .francais => pr.x = true ↔ ∃ stem, name = stem ++ ['x']
  | .norsk => pr.classic = true ↔ (∃ a b, name = a ++ "ee".toList ++ b) ∨ (∃ a b, name = a ++ "ae".toList ++ b)
  | _ => False

end Quickly.Pitch.Spec
