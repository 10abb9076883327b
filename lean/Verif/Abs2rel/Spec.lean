import Verif.Abs2rel.Model
import Verif.Node.Spec
import Verif.TransposeDoc.Spec

/-!
# What converting a document to relative music should do

`Edited` says which nodes get a `\relative` around them and what else may change.  What a document sounds like is said by the specification of C25 and
C90 (`toDoc`).
-/

namespace Quickly.Abs2rel.Spec

open Quickly.Pitch Quickly.Relative
open Quickly.Node (Path)
open Quickly.Node.Spec (Above Left)
open Quickly.Relative.Spec (MelodyL)

/-- The node at a place below this one. -/
def get? : Doc → Path → Option Doc
  | d, [] => some d
  | d, i :: p => match d.kids[i]? with
    | some k => get? k p
    | none => none

/-- The node at `p`, or something in it, is in the range: it does not end before the start, and does not begin after the end. -/
def Touched (st : Path) (en : Option Path) (p : Path) : Prop :=
  ¬ Left p st ∧ ∀ e, en = some e → ¬ Left e p ∧ ¬ Above e p

/-- All that is in the node `d` at `p` is in the range. -/
def Complete (st : Path) (en : Option Path) (p : Path) (d : Doc) : Prop :=
  ∀ q x, get? d q = some x → Touched st en (p ++ q)

mutual
/-- The same node but for the octaves of its notes; those in chords, in `\key`, `\transpose` and so on, and in a note (a `\score` in a markup) are
the same too. -/
def Octaves : Doc → Doc → Prop
  | .node (.lab (.note p nd chk)) ks, d' => ∃ o, d' = .node (.lab (.note p ⟨nd.head, o⟩ chk)) ks
  | .node (.lab .chord) ks, d' => d' = .node (.lab .chord) ks
  | .node (.lab (.skip k)) ks, d' => d' = .node (.lab (.skip k)) ks
  | .node (.lab (.language l)) ks, d' => d' = .node (.lab (.language l)) ks
  | .node l ks, d' => ∃ ks', d' = .node l ks' ∧ OctavesL ks ks'
/-- The same for lists. -/
def OctavesL : List Doc → List Doc → Prop
  | [], ks' => ks' = []
  | k :: ks, ks' => ∃ g gs, ks' = g :: gs ∧ Octaves k g ∧ OctavesL ks gs
end

mutual
/-- There is a note whose octave can change in the node. -/
def HasNote : Doc → Prop
  | .node (.lab (.note _ _ _)) _ => True
  | .node (.lab .chord) _ => False
  | .node (.lab (.skip _)) _ => False
  | .node (.lab (.language _)) _ => False
  | .node _ ks => HasNoteL ks
/-- The same for a list. -/
def HasNoteL : List Doc → Prop
  | [] => False
  | k :: ks => HasNote k ∨ HasNoteL ks
end

/-- `d` in a new `\relative`, with a start pitch if that is wished for and there are notes. -/
def Wrapped (startPitch : Bool) (d d' : Doc) : Prop :=
  ∃ start d1, d' = .node (.lab .relative) (start ++ [d1]) ∧ Octaves d d1 ∧
    ((startPitch = true ∧ HasNoteL d.kids) → ∃ nd, start = [.node (.lab (.note true nd none)) []]) ∧
    (¬ (startPitch = true ∧ HasNoteL d.kids) → start = [])

/-- A list with notes of its own. -/
def Tune (d : Doc) : Prop := d.lab = .list ∧ ∃ k ∈ d.kids, k.isNote = true

/-- What becomes of the node at a place. -/
inductive Edited (startPitch : Bool) (st : Path) (en : Option Path) : Path → Doc → Doc → Prop
  /-- outside the range -/
  | outside {p d} : ¬ Touched st en p → Edited startPitch st en p d d
  /-- relative already -/
  | relative {p d} : d.lab = .lab .relative → Edited startPitch st en p d d
  /-- a list with notes of its own, that is selected completely -/
  | tune {p d d'} : Touched st en p → Tune d → Complete st en p d → Wrapped startPitch d d' → Edited startPitch st en p d d'
  /-- `\chordmode`, selected or not -/
  | chordmode {p d d'} : Touched st en p → d.lab = .lab .chordmode → Wrapped startPitch d d' → Edited startPitch st en p d d'
  /-- any other node: the nodes in it are converted -/
  | inside {p l ks ks'} : Touched st en p → l ≠ .lab .relative → l ≠ .lab .chordmode → ¬ (Tune (.node l ks) ∧ Complete st en p (.node l ks)) →
      ks'.length = ks.length → (∀ (i : ℕ) (h : i < ks.length) (h' : i < ks'.length), Edited startPitch st en (p ++ [i]) ks[i] ks'[i]) →
      Edited startPitch st en p (.node l ks) (.node l ks')

/-- The trails of the range lead to nodes. -/
def Proper (st : Path) (en : Option Path) (d : Doc) : Prop :=
  (∃ x, get? d st = some x) ∧ ∀ e, en = some e → ∃ x, get? d e = some x

/-! ## What is heard -/

/-- What the node is, without telling lists from other nodes. -/
def Lab.plain : Lab → Rel2abs.Lab
  | .list => .other
  | .lab l => l

mutual
/-- The document as C90 has it. -/
def toDoc : Doc → Rel2abs.Doc
  | .node l ks => .node 0 (Lab.plain l) (toDocs ks)
/-- The same for a list. -/
def toDocs : List Doc → List Rel2abs.Doc
  | [] => []
  | k :: ks => toDoc k :: toDocs ks
end

/-- The music of the document, with the language that is set before it. -/
def mus (L : Str) (d : Doc) : List Mus := TransposeDoc.Spec.mus (fun _ => true) L (toDoc d)

/-- The same for the nodes in a list. -/
def musL (L : Str) (ks : List Doc) : List Mus := TransposeDoc.Spec.musL (fun _ => true) L 0 (toDocs ks)

/-- The language after the node. -/
def after (L : Str) (d : Doc) : Str := TransposeDoc.Spec.after L (toDoc d)

/-- The same for a list. -/
def afterL (L : Str) (ks : List Doc) : Str := TransposeDoc.Spec.afterL L (toDocs ks)

mutual
/-- Nothing in the node gets a `\relative` around it, and there is no `\language` in it. -/
def Quiet : Doc → Prop
  | .node (.lab (.language _)) _ => False
  | .node (.lab .chordmode) _ => False
  | .node (.lab .relative) ks => TransposeDoc.Spec.NoLangL (toDocs ks)
  | .node .list ks => (∀ k ∈ ks, k.isNote = false) ∧ QuietL ks
  | .node _ ks => QuietL ks
/-- The same for a list. -/
def QuietL : List Doc → Prop
  | [] => True
  | k :: ks => Quiet k ∧ QuietL ks
end

mutual
/-- In what is converted, there is no `\octaveCheck`, and no `\language` where the code does not look for it. -/
def Followed : Doc → Prop
  | .node (.lab .chord) ks => TransposeDoc.Spec.NoLangL (toDocs ks)
  | .node (.lab (.skip _)) ks => TransposeDoc.Spec.NoLangL (toDocs ks)
  | .node (.lab (.note _ _ _)) ks => TransposeDoc.Spec.NoLangL (toDocs ks)
  | .node (.lab .comment) ks => ks = []
  | .node (.lab (.language _)) _ => True
  | .node (.lab .check) _ => False
  | .node _ ks => FollowedL ks
/-- The same for a list. -/
def FollowedL : List Doc → Prop
  | [] => True
  | k :: ks => Followed k ∧ FollowedL ks
end

mutual
/-- The language that the first note in the node is in, if there is one whose octave can change. -/
def firstLang (L : Str) : Doc → Option Str
  | .node (.lab (.note _ _ _)) _ => some L
  | .node (.lab .chord) _ => none
  | .node (.lab (.skip _)) _ => none
  | .node (.lab (.language _)) _ => none
  | .node _ ks => firstLangL L ks
/-- The same for a list. -/
def firstLangL (L : Str) : List Doc → Option Str
  | [] => none
  | k :: ks => match firstLang L k with
    | some l => some l
    | none => firstLangL (after L k) ks
end

mutual
/-- A document that is converted well: `\language` is used in the lists that are converted only, but not before the first note of one; these have no chords, octave
checks, `\relative` and `\chordmode` (`Melody`); there is no other `\chordmode`, and nothing to convert in `\fixed`, chords, `\octaveCheck`, `\key` and the pitches of
`\transpose`. -/
def Fine (startPitch : Bool) (L : Str) : Doc → Prop
  | .node .list ks => ((∃ k ∈ ks, k.isNote = true) ∧ FollowedL ks ∧ MelodyL (musL L ks) ∧ (startPitch = true → ∀ l, firstLangL L ks = some l → l = L)) ∨
      ((∀ k ∈ ks, k.isNote = false) ∧ FineL startPitch L ks)
  | .node (.lab (.language l)) ks => l = L ∧ QuietL ks
  | .node (.lab .chordmode) _ => False
  | .node (.lab .relative) ks => TransposeDoc.Spec.NoLangL (toDocs ks)
  | .node (.lab .chord) ks => QuietL ks
  | .node (.lab .check) ks => QuietL ks
  | .node (.lab .comment) ks => ks = []
  | .node (.lab (.skip .fixed)) ks => QuietL ks
  | .node (.lab (.skip .key)) ks => QuietL ks
  | .node (.lab (.skip .silent)) ks => QuietL ks
  | .node (.lab (.skip .transpose)) ks => (∀ k ∈ (ks.filter fun k => k.lab ≠ .lab .comment).take 2, Quiet k) ∧ FineL startPitch L ks
  | .node _ ks => FineL startPitch L ks
/-- The same for a list. -/
def FineL (startPitch : Bool) (L : Str) : List Doc → Prop
  | [] => True
  | k :: ks => Fine startPitch L k ∧ FineL startPitch (after L k) ks
end

end Quickly.Abs2rel.Spec
