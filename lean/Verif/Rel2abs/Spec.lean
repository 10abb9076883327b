import Verif.Rel2abs.Model
import Verif.Relative.Spec

/-!
# Documents as trees, and how they sound

A document is a tree; `Shows` says that the nodes in memory form that tree. `mus` is the music of the tree
as C24 and C25 look at it, from which `Relative.Spec.Sounds` tells the pitches.
-/

namespace Quickly.Rel2abs.Spec

open Quickly.Pitch Quickly.Relative Quickly.Rel2abs

mutual
/-- The identities of the nodes. -/
def ids : Doc → List Id
  | .node i _ ks => i :: idsL ks
/-- The same for a list. -/
def idsL : List Doc → List Id
  | [] => []
  | k :: ks => ids k ++ idsL ks
end

mutual
/-- The nodes in memory form this tree. -/
def Shows (h : Heap) : Doc → Prop
  | .node i l ks => h.lab i = l ∧ h.kids i = ks.map Doc.id ∧ (∀ k ∈ ks, h.parent k.id = some i) ∧ ShowsL h ks
/-- The same for a list. -/
def ShowsL (h : Heap) : List Doc → Prop
  | [] => True
  | k :: ks => Shows h k ∧ ShowsL h ks
end

/-- Every child knows its parent, and no node is twice in a list. -/
structure Linked (h : Heap) : Prop where
  parent : ∀ j k, k ∈ h.kids j → h.parent k = some j
  nodup : ∀ j, (h.kids j).Nodup

mutual
/-- There is no `\relative` in the tree. -/
def NoRel : Doc → Prop
  | .node _ l ks => l ≠ .relative ∧ NoRelL ks
/-- The same for a list. -/
def NoRelL : List Doc → Prop
  | [] => True
  | k :: ks => NoRel k ∧ NoRelL ks
end

mutual
/-- Every `\octaveCheck` is the last node in its list. -/
def LastChecks : Doc → Prop
  | .node _ _ ks => (∀ k ∈ ks.dropLast, k.lab ≠ .check) ∧ LastChecksL ks
/-- The same for the nodes in a list. -/
def LastChecksL : List Doc → Prop
  | [] => True
  | k :: ks => LastChecks k ∧ LastChecksL ks
end

/-- The nodes that are not a comment. -/
def real (ks : List Doc) : List Doc := ks.filter fun k => k.lab ≠ .comment

/-- The children of a `\relative`, comments apart: one node with music, or a pitch and one node with music.
The music is not just an `\octaveCheck`, has no `\relative` in it, and every `\octaveCheck` is the last node in its list. -/
structure RelOk (ks : List Doc) : Prop where
  plain : NoRelL ks
  checks : LastChecksL ks
  shape : (∃ b, real ks = [b] ∧ b.lab ≠ .check) ∨ ∃ s b, real ks = [s, b] ∧ s.lab.isPitch = true ∧ b.lab ≠ .check

/-- The nodes that have no music with `\relative` in it. -/
def Lab.closed : Lab → Bool
  | .check | .chord | .language _ | .comment | .skip .key | .skip .silent => true
  | _ => false

/-- How many pitches the command has before the music. -/
def Lab.args : Lab → ℕ
  | .skip .transpose => 2
  | .skip .fixed => 1
  | _ => 0

/-- The first `n` nodes, comments apart. -/
def firsts (n : ℕ) (ks : List Doc) : List Doc := (real ks).take n

mutual
/-- A document that `Rel2abs` can cope with: see `RelOk`; and nodes that are not for music have no `\relative` in them. -/
def Nice : Doc → Prop
  | .node _ .relative ks => RelOk ks
  | .node _ l ks => (Lab.closed l = true → NoRelL ks) ∧ NoRelL (firsts (Lab.args l) ks) ∧ NiceL ks
/-- The same for a list. -/
def NiceL : List Doc → Prop
  | [] => True
  | k :: ks => Nice k ∧ NiceL ks
end

mutual
/-- Every `\language` in the document is the same. -/
def OneLang (L : Str) : Doc → Prop
  | .node _ l ks => (∀ l', l = .language l' → l' = L) ∧ OneLangL L ks
/-- The same for a list. -/
def OneLangL (L : Str) : List Doc → Prop
  | [] => True
  | k :: ks => OneLang L k ∧ OneLangL L ks
end

/-- The note, if the node is one. -/
def note? (L : Str) : Doc → Option Note
  | .node _ (.note _ nd chk) _ => some { node := nd, check := chk, lang := L }
  | _ => none

/-- The start pitch of a `\relative`. -/
def start? (L : Str) (ks : List Doc) : Option Note :=
  match real ks with
  | s :: _ :: _ => if s.lab.isPitch then note? L s else none
  | _ => none

mutual
/-- The notes in a chord or an `\octaveCheck`. -/
def notesIn (L : Str) : Doc → List Note
  | .node _ (.note _ nd chk) _ => [{ node := nd, check := chk, lang := L }]
  | .node _ .chordmode ks => notesInL L ks
  | .node _ .other ks => notesInL L ks
  | _ => []
/-- The same for a list. -/
def notesInL (L : Str) : List Doc → List Note
  | [] => []
  | k :: ks => notesIn L k ++ notesInL L ks
end

mutual
/-- The music of a document where the language is `L`.  What is in a note (a `\score` in a markup) is
music of its own.  A `\fixed` without a pitch is an error in LilyPond. -/
def mus (L : Str) : Doc → List Mus
  | .node _ (.note _ nd chk) ks => [.note { node := nd, check := chk, lang := L }, .absolute (musL L 0 ks)]
  | .node _ .chord ks => .chord (notesInL L ks) :: extrasL L ks
  | .node _ .check ks => (notesInL L ks).map .check
  | .node _ .relative ks => [.relative (start? L ks) (musL L (start? L ks).toList.length ks)]
  | .node _ (.skip .absolute) ks => [.absolute (musL L 0 ks)]
  | .node _ (.skip .fixed) ks => match (firsts 1 ks).filterMap (note? L) with
    | n :: _ => [.fixed n (musL L 1 ks)]
    | [] => [.absolute (musL L 1 ks)]
  | .node _ (.skip .transpose) ks => [.apart .transpose ((firsts 2 ks).filterMap (note? L)) (musL L 2 ks)]
  | .node _ (.skip .key) ks => (notesInL L ks).map .key
  | .node _ (.skip .silent) _ => []
  | .node _ (.language _) _ => []
  | .node _ .comment _ => []
  | .node _ .chordmode ks => [.apart .chordmode [] (musL L 0 ks)]
  | .node _ .other ks => [.group (musL L 0 ks)]
/-- The nodes in a list, without the first `n` that are no comment. -/
def musL (L : Str) : ℕ → List Doc → List Mus
  | _, [] => []
  | 0, k :: ks => mus L k ++ musL L 0 ks
  | n + 1, k :: ks => if k.lab = .comment then musL L (n + 1) ks else musL L n ks
/-- The music in the notes of a chord. -/
def extras (L : Str) : Doc → List Mus
  | .node _ (.note _ _ _) ks => [.absolute (musL L 0 ks)]
  | .node _ .chordmode ks => extrasL L ks
  | .node _ .other ks => extrasL L ks
  | _ => []
/-- The same for a list. -/
def extrasL (L : Str) : List Doc → List Mus
  | [] => []
  | k :: ks => extras L k ++ extrasL L ks
end

mutual
/-- In chords and in `\octaveCheck` there are just notes, no chords, and a comment is empty. -/
def Tidy (inside : Bool) : Doc → Prop
  | .node _ .chord ks => inside = false ∧ TidyL true ks
  | .node _ .check ks => inside = false ∧ TidyL true ks
  | .node _ .comment ks => ks = []
  | .node _ (.note _ _ _) ks => TidyL false ks
  | .node _ (.skip _) ks => TidyL false ks
  | .node _ _ ks => TidyL inside ks
/-- The same for a list. -/
def TidyL (inside : Bool) : List Doc → Prop
  | [] => True
  | k :: ks => Tidy inside k ∧ TidyL inside ks
end

mutual
/-- The nodes of the tree are what they were in memory before, except that notes may have another name or octave. -/
def Kept (h : Heap) : Doc → Prop
  | .node i l ks => (h.lab i = l ∨ ∃ p nd nd' chk, h.lab i = .note p nd chk ∧ l = .note p nd' chk) ∧ KeptL h ks
/-- The same for a list. -/
def KeptL (h : Heap) : List Doc → Prop
  | [] => True
  | k :: ks => Kept h k ∧ KeptL h ks
end

mutual
/-- The node in the tree. -/
def find (i : Id) : Doc → Option Doc
  | .node j l ks => if i = j then some (.node j l ks) else findL i ks
/-- The same for a list. -/
def findL (i : Id) : List Doc → Option Doc
  | [] => none
  | t :: ts => (find i t).or (findL i ts)
end

mutual
/-- The parent of the node in the tree. -/
def parentOf (i : Id) : Doc → Option Id
  | .node j _ ks => if i ∈ ks.map Doc.id then some j else parentOfL i ks
/-- The same for a list. -/
def parentOfL (i : Id) : List Doc → Option Id
  | [] => none
  | t :: ts => (parentOf i t).or (parentOfL i ts)
end

/-- The tree in memory. -/
def store (L : Str) (T : Doc) : Heap where
  lab i := ((find i T).map Doc.lab).getD .other
  kids i := ((find i T).map fun t => t.kids.map Doc.id).getD []
  parent i := parentOf i T
  lang := L

/-- The tree that is in memory, down to the depth. -/
def read (h : Heap) : ℕ → Id → Doc
  | 0, i => .node i (h.lab i) []
  | d + 1, i => .node i (h.lab i) ((h.kids i).map (read h d))

mutual
/-- The nodes that stay; `rel` tells whether the node is in the music of a `\relative`.  A `\relative` goes with its pitch and the comments next to it, and so
does an `\octaveCheck` in its music. -/
def stay (rel : Bool) : Doc → List Id
  | .node _ .relative ks => stayR (start? [] ks).toList.length ks
  | .node i .check ks => if rel then [] else i :: stayL false ks
  | .node i (.note _ _ _) ks => i :: stayL false ks
  | .node i (.skip _) ks => i :: stayL false ks
  | .node i (.language _) ks => i :: stayL false ks
  | .node i _ ks => i :: stayL rel ks
/-- The same for a list. -/
def stayL (rel : Bool) : List Doc → List Id
  | [] => []
  | t :: ts => stay rel t ++ stayL rel ts
/-- The children of a `\relative`, without comments and the first `n` others. -/
def stayR : ℕ → List Doc → List Id
  | _, [] => []
  | 0, t :: ts => if t.lab = .comment then stayR 0 ts else stay true t ++ stayR 0 ts
  | n + 1, t :: ts => if t.lab = .comment then stayR (n + 1) ts else stayR n ts
end

end Quickly.Rel2abs.Spec
