import Verif.TransposeDoc.Spec

/-!
# Which notes come back

`NotesAre` looks at the notes of a document as `TransposeDoc.Spec.AllNotes` does, but `P` knows which note it is, and its octave check.
-/

namespace Quickly.TransposeBack.Spec

open Quickly.Pitch Quickly.Relative Quickly.Rel2abs Quickly.TransposeDoc.Spec

mutual
/-- Every note in the document is `P`, in the language that was set last before it; the notes of `\transposition` and `\stringTuning` do not count.
There is no `\language` in those, or in the pitch in front of music, and nothing in a comment. -/
def NotesAre (P : Id → Str → PNode → Option ℤ → Prop) (L : Str) : Doc → Prop
  | .node i (.note _ nd chk) ks => P i L nd chk ∧ NotesAreL P L ks
  | .node _ (.skip .silent) ks => NoLangL ks
  | .node _ .comment ks => ks = []
  | .node _ .relative ks => (∀ i p nd chk gs, (real ks).head? = some (.node i (.note p nd chk) gs) → NoLangL gs) ∧ NotesAreL P L ks
  | .node _ (.skip .fixed) ks => (∀ k, (real ks).head? = some k → NoLang k) ∧ NotesAreL P L ks
  | .node _ _ ks => NotesAreL P L ks
/-- The same for a list. -/
def NotesAreL (P : Id → Str → PNode → Option ℤ → Prop) (L : Str) : List Doc → Prop
  | [] => True
  | k :: ks => NotesAre P L k ∧ NotesAreL P (after L k) ks
end

/-- The note has no octave check, it is written as the processor writes its pitch, and the one transposition undoes the other for that pitch. -/
def Returns (pp : Langs) (tr tr2 : Pitch → Pitch) (L : Str) (nd : PNode) (chk : Option ℤ) : Prop :=
  chk = none ∧ ∃ p, (pp L).readNode nd = .ok p ∧ (pp L).pitchable p = .ok nd ∧ tr2 (tr p) = p

end Quickly.TransposeBack.Spec
