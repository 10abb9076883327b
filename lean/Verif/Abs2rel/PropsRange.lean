import Verif.Abs2rel.SoundsRange
import Verif.Abs2rel.Props

/-! # C91: converting a part of a document -/

namespace Quickly.Abs2rel

open Quickly.Pitch Quickly.Relative Quickly.Abs2rel.Spec Quickly.Relative.Spec
open Quickly.Pitch.Spec (IsDict Means)
open Quickly.Node (Path)

/-- C91: converting the selected part of a document succeeds, and every note of the document, selected or not, has the pitch that it had.  The node `.node l ks` is the
ancestor of the range, `C` is the document around it, `A` is the language before it, and `L` is the language that the code finds before the range.

Missing: `FitsL` says what must not be in the selection; outside the selection, and in what is not converted, anything may be.  A `\language` that is in the selection
must be in lists that are converted, after the first note, or there must be no list after it that is converted (`C91_language`, `C91_start_language`); lists that are
converted must not have chords, octave checks, `\relative` and `\chordmode` in them (C25); the selection is not in a `\relative` (`C91_inside_relative`). -/
theorem C91_range_partial (pp : Langs) (hd : ∀ l, IsDict (pp l).table) (se : Settings)
    (hc : se.startPitch = true → ∀ lang, ∃ name o, Means (pp lang).table name o 0 0) (st : Path) (en : Option Path) (A0 A L L' : Str)
    (C : Doc → Doc) (l : Lab) (ks : List Doc) (hs : List Heard) (hv : Proper st en (.node l ks)) (hC : Around A A0 C) (hl : Open l)
    (hf : FitsL se.startPitch st en [] 0 0 A L ks L') (h : Sounds pp.tables (reference se.firstAbs) (mus A0 (C (.node l ks))) hs) :
    ∃ d' hs', editRange pp se ⟨st, en⟩ L (.node l ks) = .ok d' ∧ Sounds pp.tables (reference se.firstAbs) (mus A0 (C d')) hs' ∧
      pitches hs' = pitches hs := by
  obtain ⟨m, h⟩ := h
  obtain ⟨hs1, x1, x2⟩ := around_sounds _ _ A A0 C hC _ m hs h
  obtain ⟨hs2, y1, y2⟩ := open_sounds _ _ l hl A ks _ hs1 x1
  obtain ⟨ks', hs3, e1, e2, e3, e4⟩ := editL_fits pp hd se hc st en ks [] ⟨st, en⟩ (.node l ks) 0 0 A L L' _ hs2
    ⟨.inl rfl, by cases en <;> simp⟩ ⟨hv.1, hv.2⟩ rfl hf y1
  obtain ⟨hs4, z1, z2⟩ := y2 ks' hs3 e3 e4
  obtain ⟨-, hs', w1, w2⟩ := x2 (.node l ks') hs4 (by rw [open_after hl, open_after hl, e2]) z1 z2
  refine ⟨.node l ks', hs', ?_, ⟨_, w1⟩, w2⟩
  rw [editRange, show ks.length = (Doc.node l ks).kids.length from rfl, e1]

/-! ## Example -/

/-- `\language "x" \transpose xc %{%} xc` and the node in which something is selected. -/
def exAround (d : Doc) : Doc :=
  grp [lan ['x'], .node (.lab (.skip .transpose)) [tx 'c' 0, .node (.lab .comment) [], tx 'c' 0, d]]

/-- `{ xc' { xc' <xc> } \chordmode { xc' } { xc' } }`. -/
def exKids : List Doc := [tx 'c' 1, lst [tx 'c' 1, .node (.lab .chord) [tx 'c' 0]], .node (.lab .chordmode) [lst [tx 'c' 1]], lst [tx 'c' 1]]

example : editRange TransposeDoc.exPP2 ⟨true, true⟩ ⟨[3], none⟩ ['x'] (lst exKids) =
    .ok (lst [tx 'c' 1, lst [tx 'c' 1, .node (.lab .chord) [tx 'c' 0]], .node (.lab .chordmode) [lst [tx 'c' 1]], rel [tx 'c' 1, lst [tx 'c' 0]]]) := by
  with_unfolding_all rfl

/-- Just the last list of `\language "x" \transpose c d { xc' { xc' <xc> } \chordmode { xc' } { xc' } }` is converted, and all notes keep their pitches. -/
theorem C91_range_nontrivial :
    ∃ d' hs', editRange TransposeDoc.exPP2 ⟨true, true⟩ ⟨[3], none⟩ ['x'] (lst exKids) = .ok d' ∧
      Sounds TransposeDoc.exPP2.tables (reference true) (mus [] (exAround d')) hs' ∧
      pitches hs' = [⟨0, 0, 0⟩, ⟨0, 0, 0⟩, ⟨-1, 0, 0⟩, ⟨0, 0, 0⟩, ⟨0, 0, 0⟩] := by
  have h : Sounds TransposeDoc.exPP2.tables (reference true) (mus [] (exAround (lst exKids)))
      [⟨⟨0, 0, 0⟩, none⟩, ⟨⟨0, 0, 0⟩, none⟩, ⟨⟨-1, 0, 0⟩, none⟩, ⟨⟨0, 0, 0⟩, none⟩, ⟨⟨0, 0, 0⟩, none⟩] := (sounds_iff _ TransposeDoc.exDict2 _ _ _).2 rfl
  have no : ∀ i, i < 3 → ¬ Touched [3] none ([] ++ [i]) := fun i hi ht => ht.1 ⟨[], i, 3, [], [], rfl, rfl, hi⟩
  refine C91_range_partial TransposeDoc.exPP2 TransposeDoc.exDict2 ⟨true, true⟩ (fun _ => exC) [3] none [] ['x'] ['x'] ['x'] exAround .list exKids _
    ⟨⟨_, rfl⟩, fun e he => by cases he⟩ ?_ (.inl rfl) ?_ h
  · exact .inside (l := .lab .other) (pre := [lan ['x']]) (post := []) (.inr (.inl rfl))
      (.transpose (pre := [tx 'c' 0, .node (.lab .comment) [], tx 'c' 0]) (post := []) (by decide) .here)
  · refine .cons (.outside (no 0 (by decide))) (.cons (.outside (no 1 (by decide))) (.cons (.outside (no 2 (by decide))) (.cons (.tune ?_ ?_ ?_ ?_ ?_) .nil)))
    · exact ⟨rfl, tx 'c' 1, by simp [Doc.kids], rfl⟩
    · intro q x _
      exact ⟨fun ⟨c, i, j, r, s, h1, h2, h3⟩ => by
        cases c with
        | nil => simp at h1 h2; omega
        | cons y c => simp at h2, fun e he => by cases he⟩
    · simp [FollowedL, Followed, tx, toDocs, TransposeDoc.Spec.NoLangL]
    · simp [tx, musL, toDocs, toDoc, TransposeDoc.Spec.musL, TransposeDoc.Spec.mus, Lab.plain, MelodyL, Melody]
    · intro _ l hl
      simpa [tx, firstLangL, firstLang, afterL, after, toDoc, toDocs, TransposeDoc.Spec.after, TransposeDoc.Spec.afterL, lan, Lab.plain, lst] using hl.symm

end Quickly.Abs2rel
