import Verif.TransposeDoc.Model
import Verif.Relative.Spec

/-!
# What transposing a document should do

`Same` says that two documents differ in the pitches of selected notes only.  `mus` is the music of a document as C24 looks at it, where every note is read
in the language that was set last before it.
-/

namespace Quickly.TransposeDoc.Spec

open Quickly.Pitch Quickly.Relative Quickly.Rel2abs

/-- The node is the same, or it is a selected note (`w`) with another pitch; an octave check does not come or go. -/
def LabSame (w : Bool) (l m : Lab) : Prop :=
  l = m ∨ (w = true ∧ ∃ p nd chk nd' chk', l = .note p nd chk ∧ m = .note p nd' chk' ∧ chk'.isSome = chk.isSome)

mutual
/-- The documents have the same nodes, except for the pitches of selected notes. -/
def Same (sel : Id → Bool) : Doc → Doc → Prop
  | .node i l ks, .node j m gs => i = j ∧ LabSame (sel i) l m ∧ SameL sel ks gs
/-- The same for lists. -/
def SameL (sel : Id → Bool) : List Doc → List Doc → Prop
  | [], [] => True
  | k :: ks, g :: gs => Same sel k g ∧ SameL sel ks gs
  | _, _ => False
end

mutual
/-- The language after the node, if it is `L` before it: the last `\language` in the document. -/
def after (L : Str) : Doc → Str
  | .node _ (.language l) _ => l
  | .node _ _ ks => afterL L ks
/-- The same for a list. -/
def afterL (L : Str) : List Doc → Str
  | [] => L
  | k :: ks => afterL (after L k) ks
end

/-- The note, if the node is one. -/
def note? (sel : Id → Bool) (L : Str) : Doc → Option Note
  | .node i (.note _ nd chk) _ => some { node := nd, check := chk, writable := sel i, lang := L }
  | _ => none

/-- The nodes that are not a comment. -/
def real (ks : List Doc) : List Doc := ks.filter fun k => k.lab ≠ .comment

/-- The start pitch of a `\relative`. -/
def start? (sel : Id → Bool) (L : Str) (ks : List Doc) : Option Note :=
  match real ks with
  | s :: _ :: _ => note? sel L s
  | _ => none

mutual
/-- The notes in a chord, `\key` or `\octaveCheck`. -/
def notesIn (sel : Id → Bool) (L : Str) : Doc → List Note
  | .node i (.note _ nd chk) _ => [{ node := nd, check := chk, writable := sel i, lang := L }]
  | .node _ .chordmode ks => notesInL sel L ks
  | .node _ .other ks => notesInL sel L ks
  | _ => []
/-- The same for a list. -/
def notesInL (sel : Id → Bool) (L : Str) : List Doc → List Note
  | [] => []
  | k :: ks => notesIn sel L k ++ notesInL sel (after L k) ks
end

mutual
/-- The music of a document.  What is in a note (a `\score` in a markup) is music of its own.  A `\fixed` without a pitch is an error in LilyPond. -/
def mus (sel : Id → Bool) (L : Str) : Doc → List Mus
  | .node i (.note _ nd chk) ks =>
    [.note { node := nd, check := chk, writable := sel i, lang := L }, .absolute (musL sel L 0 ks)]
  | .node _ .chord ks => .chord (notesInL sel L ks) :: extrasL sel L ks
  | .node _ .check ks => (notesInL sel L ks).map .check
  | .node _ .relative ks => [.relative (start? sel L ks) (musL sel L (start? sel L ks).toList.length ks)]
  | .node _ (.skip .absolute) ks => [.absolute (musL sel L 0 ks)]
  | .node _ (.skip .fixed) ks => match ((real ks).take 1).filterMap (note? sel L) with
    | n :: _ => [.fixed n (musL sel L 1 ks)]
    | [] => [.absolute (musL sel L 1 ks)]
  | .node _ (.skip .transpose) ks =>
    [.apart .transpose (((real ks).take 2).filterMap (note? sel L)) (musL sel L 2 ks)]
  | .node _ (.skip .key) ks => (notesInL sel L ks).map .key
  | .node _ (.skip .silent) _ => []
  | .node _ (.language _) _ => []
  | .node _ .comment _ => []
  | .node _ .chordmode ks => [.apart .chordmode [] (musL sel L 0 ks)]
  | .node _ .other ks => [.group (musL sel L 0 ks)]
/-- The nodes in a list, without the first `n` that are no comment. -/
def musL (sel : Id → Bool) (L : Str) : ℕ → List Doc → List Mus
  | _, [] => []
  | 0, k :: ks => mus sel L k ++ musL sel (after L k) 0 ks
  | n + 1, k :: ks => if k.lab = .comment then musL sel (after L k) (n + 1) ks else musL sel (after L k) n ks
/-- The music in the notes of a chord. -/
def extras (sel : Id → Bool) (L : Str) : Doc → List Mus
  | .node _ (.note _ _ _) ks => [.absolute (musL sel L 0 ks)]
  | .node _ .chordmode ks => extrasL sel L ks
  | .node _ .other ks => extrasL sel L ks
  | _ => []
/-- The same for a list. -/
def extrasL (sel : Id → Bool) (L : Str) : List Doc → List Mus
  | [] => []
  | k :: ks => extras sel L k ++ extrasL sel (after L k) ks
end

mutual
/-- There is no note and no `\language` in the node. -/
def Dull : Doc → Prop
  | .node _ (.note _ _ _) _ => False
  | .node _ (.language _) _ => False
  | .node _ _ ks => DullL ks
/-- The same for a list. -/
def DullL : List Doc → Prop
  | [] => True
  | k :: ks => Dull k ∧ DullL ks
end

mutual
/-- There is no `\language` in the node. -/
def NoLang : Doc → Prop
  | .node _ (.language _) _ => False
  | .node _ _ ks => NoLangL ks
/-- The same for a list. -/
def NoLangL : List Doc → Prop
  | [] => True
  | k :: ks => NoLang k ∧ NoLangL ks
end

/-- A pitch with nothing in it. -/
def Plain : Doc → Prop
  | .node _ (.note _ _ _) ks => DullL ks
  | _ => False

mutual
/-- Notes with nothing in them, and no other nodes with music. -/
def Flat : Doc → Prop
  | .node _ (.note _ _ _) ks => DullL ks
  | .node _ .comment ks => ks = []
  | .node _ .other ks => FlatL ks
  | _ => False
/-- The same for a list. -/
def FlatL : List Doc → Prop
  | [] => True
  | k :: ks => Flat k ∧ FlatL ks
end

/-- The pitches in front of the music. -/
def Front (l : Lab) (ks : List Doc) : Prop :=
  match l with
  | .relative => ∀ s b rest, real ks = s :: b :: rest → Plain s ∨ Dull s ∨ ∀ i p nd chk gs, s ≠ .node i (.note p nd chk) gs
  | .skip .fixed => ∀ s rest, real ks = s :: rest → Plain s ∨ Dull s
  | .skip .transpose => ∃ a b rest, ks = a :: b :: rest ∧ Plain a ∧ Plain b
  | _ => True

mutual
/-- A document whose music is clear: a chord (`inside`) has just notes, a comment is empty, `\key` and `\octaveCheck` have notes with nothing in them, and
so have the commands that take pitches; the two pitches of a `\transpose` have no comment before them. -/
def Clear (inside : Bool) : Doc → Prop
  | .node _ (.note _ _ _) ks => ClearL false ks
  | .node _ .chord ks => inside = false ∧ ClearL true ks
  | .node _ .check ks => inside = false ∧ FlatL ks
  | .node _ (.skip .key) ks => inside = false ∧ FlatL ks
  | .node _ (.skip .silent) ks => NoLangL ks
  | .node _ .comment ks => ks = []
  | .node _ (.language _) _ => True
  | .node _ .other ks => ClearL inside ks
  | .node _ .chordmode ks => inside = false ∧ ClearL false ks
  | .node _ .relative ks => inside = false ∧ Front .relative ks ∧ ClearL false ks
  | .node _ (.skip .absolute) ks => inside = false ∧ ClearL false ks
  | .node _ (.skip .fixed) ks => inside = false ∧ Front (.skip .fixed) ks ∧ ClearL false ks
  | .node _ (.skip .transpose) ks => inside = false ∧ Front (.skip .transpose) ks ∧ ClearL false ks
/-- The same for a list. -/
def ClearL (inside : Bool) : List Doc → Prop
  | [] => True
  | k :: ks => Clear inside k ∧ ClearL inside ks
end

mutual
/-- Every note in the document is `P`, in the language that was set last before it; the notes of `\transposition` and `\stringTuning` do not count.
There is no `\language` in those, or in the pitch in front of music, and nothing in a comment. -/
def AllNotes (P : Str → PNode → Prop) (L : Str) : Doc → Prop
  | .node _ (.note _ nd _) ks => P L nd ∧ AllNotesL P L ks
  | .node _ (.skip .silent) ks => NoLangL ks
  | .node _ .comment ks => ks = []
  | .node _ .relative ks => (∀ i p nd chk gs, (real ks).head? = some (.node i (.note p nd chk) gs) → NoLangL gs) ∧ AllNotesL P L ks
  | .node _ (.skip .fixed) ks => (∀ k, (real ks).head? = some k → NoLang k) ∧ AllNotesL P L ks
  | .node _ _ ks => AllNotesL P L ks
/-- The same for a list. -/
def AllNotesL (P : Str → PNode → Prop) (L : Str) : List Doc → Prop
  | [] => True
  | k :: ks => AllNotes P L k ∧ AllNotesL P (after L k) ks
end

end Quickly.TransposeDoc.Spec
