import Verif.Abs2rel.Spec

/-! # When a part of a document is converted well -/

namespace Quickly.Abs2rel.Spec

open Quickly.Pitch Quickly.Relative
open Quickly.Node (Path)
open Quickly.Relative.Spec (MelodyL)

mutual
/-- Nothing in the node gets a `\relative` around it, whatever is selected. -/
def Still : Doc → Prop
  | .node (.lab .chordmode) _ => False
  | .node (.lab .relative) _ => True
  | .node .list ks => (∀ k ∈ ks, k.isNote = false) ∧ StillL ks
  | .node _ ks => StillL ks
/-- The same for a list. -/
def StillL : List Doc → Prop
  | [] => True
  | k :: ks => Still k ∧ StillL ks
end

/-- Nodes in which music is absolute if the music around them is. -/
def Open (l : Lab) : Prop :=
  l = .list ∨ l = .lab .other ∨ l = .lab (.skip .absolute) ∨ ∃ p nd chk, l = .lab (.note p nd chk)

mutual
/-- The node at `p` is converted well.  In the document the language before it is `A`, and the code takes it to be `L`, and takes it to be `L'` after it: what the code
knows of the language is only used in the lists that are converted. -/
inductive Fits (startPitch : Bool) (st : Path) (en : Option Path) : Path → Str → Str → Doc → Str → Prop
  /-- outside the range anything may be -/
  | outside {p A L d} : ¬ Touched st en p → Fits startPitch st en p A L d L
  /-- and in `\relative` -/
  | relative {p A L d} : d.lab = .lab .relative → Fits startPitch st en p A L d L
  /-- nothing is converted in it -/
  | still {p A L d} : Still d → Fits startPitch st en p A L d L
  /-- a list that is converted: a melody without chords, octave checks, `\relative` and `\chordmode`; no `\language` before the first note -/
  | tune {p A ks} : Tune (.node .list ks) → Complete st en p (.node .list ks) → FollowedL ks → MelodyL (musL A ks) →
      (startPitch = true → ∀ l, firstLangL A ks = some l → l = A) → Fits startPitch st en p A A (.node .list ks) (afterL A ks)
  /-- other music -/
  | inside {p A L l ks L'} : Touched st en p → Open l → ¬ (Tune (.node l ks) ∧ Complete st en p (.node l ks)) → FitsL startPitch st en p 0 0 A L ks L' →
      Fits startPitch st en p A L (.node l ks) L'
  /-- `\transpose`: the two pitches, and the music -/
  | transpose {p A L ks L'} : Touched st en p → FitsL startPitch st en p 0 2 A L ks L' → Fits startPitch st en p A L (.node (.lab (.skip .transpose)) ks) L'
/-- The children from index `i` on; the first `n` of them, without comments, are no music. -/
inductive FitsL (startPitch : Bool) (st : Path) (en : Option Path) : Path → ℕ → ℕ → Str → Str → List Doc → Str → Prop
  | nil {p i n A L} : FitsL startPitch st en p i n A L [] L
  | cons {p i A L k L1 ks L'} : Fits startPitch st en (p ++ [i]) A L k L1 → FitsL startPitch st en p (i + 1) 0 (after A k) L1 ks L' →
      FitsL startPitch st en p i 0 A L (k :: ks) L'
  | comment {p i n A L k ks L'} : k.lab = .lab .comment → Still k → FitsL startPitch st en p (i + 1) (n + 1) (after A k) L ks L' →
      FitsL startPitch st en p i (n + 1) A L (k :: ks) L'
  | skip {p i n A L k ks L'} : k.lab ≠ .lab .comment → Still k → FitsL startPitch st en p (i + 1) n (after A k) L ks L' →
      FitsL startPitch st en p i (n + 1) A L (k :: ks) L'
end

/-- The document around a node, as a function of the node: the document begins in the language `A0`, the language before the node is `A`, and the music is absolute there. -/
inductive Around (A : Str) : Str → (Doc → Doc) → Prop
  | here : Around A A id
  | inside {A0 l pre C post} : Open l → Around A (afterL A0 pre) C → Around A A0 fun x => .node l (pre ++ C x :: post)
  | transpose {A0 pre C post} : 2 ≤ (pre.filter fun k => k.lab ≠ .lab .comment).length → Around A (afterL A0 pre) C →
      Around A A0 fun x => .node (.lab (.skip .transpose)) (pre ++ C x :: post)

end Quickly.Abs2rel.Spec
