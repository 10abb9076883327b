import Verif.Abs2rel.Sounds
import Verif.TransposeDoc.Props

/-!
# C91 Converting a document to relative music
-/

namespace Quickly.Abs2rel

open Quickly.Pitch Quickly.Relative Quickly.Abs2rel.Spec Quickly.Relative.Spec
open Quickly.Pitch.Spec (IsDict Means)
open Quickly.Node (Path)

/-- C91: what `Abs2rel` changes in a range.  The root stays, and every other node is as `Edited` says: only nodes that the range touches are changed; lists that have
notes of their own and are completely in the range, and `\chordmode`, get a `\relative` around them and notes with other octaves; nothing else. -/
theorem C91_edited (pp : Langs) (se : Settings) (st : Path) (en : Option Path) (L : Str) (l : Lab) (ks : List Doc) (d' : Doc)
    (hv : Proper st en (.node l ks)) (h : editRange pp se ⟨st, en⟩ L (.node l ks) = .ok d') :
    ∃ ks', d' = .node l ks' ∧ ks'.length = ks.length ∧
      ∀ (i : ℕ) (h : i < ks.length) (h' : i < ks'.length), Edited se.startPitch st en [i] ks[i] ks'[i] := by
  rw [editRange] at h
  split at h
  · cases h
  · rename_i L' ks' e
    cases h
    obtain ⟨h1, h2⟩ := editL_edited pp se st en ks [] ⟨st, en⟩ (.node l ks) 0 L L' ks'
      ⟨.inl rfl, by cases en <;> simp⟩ ⟨hv.1, hv.2⟩ rfl e
    refine ⟨ks', rfl, h1, fun i hi hi' => ?_⟩
    have := h2 i hi hi'
    simpa using this

/-! ## Twice -/

theorem make_relative (pp : Langs) (se : Settings) (L L' : Str) (d d' : Doc) (h : make pp se L d = .ok (L', d')) : d'.lab = .lab .relative := by
  cases d with
  | node l ks =>
    rw [make] at h
    split at h
    · cases h
    · cases h
      rfl

theorem edit_relative (pp : Langs) (se : Settings) (L : Str) (d : Doc) (h : d.lab = .lab .relative) : edit pp se {} true L d = .ok (L, d) := by
  cases d with
  | node l ks =>
    rw [Doc.lab] at h
    subst h
    rw [edit]

theorem editL_length (pp : Langs) (se : Settings) (r : Rng) (len : ℕ) : ∀ (ks ks' : List Doc) (i : ℕ) (L L' : Str), editL pp se r len i L ks = .ok (L', ks') →
    ks'.length = ks.length
  | [], ks', i, L, L', h => by
    rw [editL] at h
    cases h
    rfl
  | k :: ks, ks', i, L, L', h => by
    rw [editL] at h
    split at h
    · cases h
    · split at h
      · cases h
      · rename_i e
        cases h
        rw [List.length_cons, List.length_cons, editL_length pp se r len _ _ _ _ _ e]

mutual
theorem edit_again (pp pp2 : Langs) (se se2 : Settings) : ∀ (d d' : Doc) (L L' L2 : Str), edit pp se {} true L d = .ok (L', d') →
    edit pp2 se2 {} true L2 d' = .ok (L2, d') ∧ d'.isNote = d.isNote
  | .node l ks, d', L, L', L2, h => by
    have made : make pp se L (.node l ks) = .ok (L', d') → Doc.isNote (.node l ks) = false →
        edit pp2 se2 {} true L2 d' = .ok (L2, d') ∧ d'.isNote = Doc.isNote (.node l ks) := by
      intro h hn
      have := make_relative _ _ _ _ _ _ h
      refine ⟨edit_relative _ _ _ _ this, ?_⟩
      rw [hn, Doc.isNote, this]
    have rest : (match editL pp se {} ks.length 0 L ks with
        | .error e => .error e
        | .ok (L, ks) => .ok (L, .node l ks)) = (.ok (L', d') : Py (Str × Doc)) →
        ∃ ks', d' = .node l ks' ∧ ks'.any Doc.isNote = ks.any Doc.isNote ∧ editL pp2 se2 {} ks'.length 0 L2 ks' = .ok (L2, ks') := by
      intro h
      split at h
      · cases h
      · rename_i L3 ks' e
        cases h
        have hlen := editL_length _ _ _ _ _ _ _ _ _ e
        obtain ⟨h1, h2⟩ := editL_again pp pp2 se se2 ks ks' ks.length 0 L _ L2 (by omega) e
        exact ⟨ks', rfl, h2, by rw [hlen]; exact h1⟩
    cases l with
    | list =>
      rw [edit] at h
      split at h
      · exact made h rfl
      · rename_i hn
        obtain ⟨ks', rfl, h1, h2⟩ := rest h
        refine ⟨?_, rfl⟩
        rw [edit, h1, if_neg hn, h2]
    | lab l =>
      cases l with
      | relative =>
        rw [edit] at h
        cases h
        exact ⟨by rw [edit], rfl⟩
      | chordmode =>
        rw [edit] at h
        exact made h rfl
      | _ =>
        simp only [edit] at h
        obtain ⟨ks', rfl, h1, h2⟩ := rest h
        refine ⟨?_, rfl⟩
        simp only [edit]
        rw [h2]
theorem editL_again (pp pp2 : Langs) (se se2 : Settings) : ∀ (ks ks' : List Doc) (len i : ℕ) (L L' L2 : Str), i + ks.length ≤ len →
    editL pp se {} len i L ks = .ok (L', ks') →
    editL pp2 se2 {} len i L2 ks' = .ok (L2, ks') ∧ ks'.any Doc.isNote = ks.any Doc.isNote
  | [], ks', len, i, L, L', L2, hl, h => by
    rw [editL] at h
    cases h
    exact ⟨by rw [editL], rfl⟩
  | k :: ks, ks', len, i, L, L', L2, hl, h => by
    rw [List.length_cons] at hl
    have hc : (Rng.start {} ≤ i ∧ (i : ℤ) ≤ Rng.stop {} len) := by
      constructor
      · simp [Rng.start]
      · simp only [Rng.stop]
        omega
    rw [editL, if_pos hc, child_whole, inRange_whole] at h
    split at h
    · cases h
    · rename_i L3 k' e1
      split at h
      · cases h
      · rename_i L4 ks' e2
        cases h
        obtain ⟨a1, a2⟩ := edit_again pp pp2 se se2 k k' L L3 L2 e1
        obtain ⟨b1, b2⟩ := editL_again pp pp2 se se2 ks ks' len (i + 1) L3 L' L2 (by omega) e2
        refine ⟨editL_cons _ _ _ _ _ _ _ _ _ _ _ (by omega) a1 b1, ?_⟩
        rw [List.any_cons, List.any_cons, a2, b2]
end

/-- C91: a document that was converted is not changed when it is converted again, whatever the settings are. -/
theorem C91_again (pp pp2 : Langs) (se se2 : Settings) (L L2 : Str) (d d' : Doc) (h : editRange pp se {} L d = .ok d') :
    editRange pp2 se2 {} L2 d' = .ok d' := by
  cases d with
  | node l ks =>
    rw [editRange] at h
    split at h
    · cases h
    · rename_i L3 ks' e
      cases h
      have hlen := editL_length _ _ _ _ _ _ _ _ _ e
      obtain ⟨h1, -⟩ := editL_again pp pp2 se se2 ks ks' ks.length 0 L L3 L2 (by omega) e
      rw [editRange, hlen, h1]

/-- C91: converting a whole document succeeds, and every note has the pitch that it had.  Missing: `Fine` says what must not be in the document; in particular
a `\language` may only be in lists that are converted, after the first note of the list (`C91_language`, `C91_start_language`), and these must not have chords, octave
checks, `\relative` and `\chordmode` in them (C25). -/
theorem C91_sounds_partial (pp : Langs) (hd : ∀ l, IsDict (pp l).table) (st : Settings)
    (hc : st.startPitch = true → ∀ lang, ∃ name o, Means (pp lang).table name o 0 0) (L : Str) (ks : List Doc) (hs : List Heard)
    (hf : FineL st.startPitch L ks) (h : Sounds pp.tables (reference st.firstAbs) (mus L (.node (.lab .other) ks)) hs) :
    ∃ d' hs', editRange pp st {} L (.node (.lab .other) ks) = .ok d' ∧ Sounds pp.tables (reference st.firstAbs) (mus L d') hs' ∧
      pitches hs' = pitches hs := by
  obtain ⟨m, h⟩ := h
  rw [mus_node] at h
  simp only [Lab.plain, TransposeDoc.Spec.mus] at h
  cases h with
  | group h1 h2 =>
    cases h2 with
    | nil =>
      obtain ⟨ks', hs', e1, e2, e3, e4⟩ := editL_sounds pp hd st hc ks ks.length 0 L 0 _ _ (by omega) hf (by simp) h1
      refine ⟨.node (.lab .other) ks', hs' ++ [], by rw [editRange, e1], ⟨.abs 0, ?_⟩, by rw [List.append_nil, List.append_nil, e4]⟩
      rw [mus_node]
      simp only [Lab.plain, TransposeDoc.Spec.mus]
      exact .group e3 (.nil _)

/-! ## Examples -/

/-- A note. -/
def tn (ch : Char) (o : ℤ) : Doc := .node (.lab (.note true ⟨[ch], o⟩ none)) []

/-- A note with a name of two letters. -/
def tx (ch : Char) (o : ℤ) : Doc := .node (.lab (.note true ⟨['x', ch], o⟩ none)) []

/-- Some node. -/
def grp (ks : List Doc) : Doc := .node (.lab .other) ks

/-- `{ ... }`. -/
def lst (ks : List Doc) : Doc := .node .list ks

/-- `\relative`. -/
def rel (ks : List Doc) : Doc := .node (.lab .relative) ks

/-- `\language`. -/
def lan (l : Str) : Doc := .node (.lab (.language l)) []

/-- `{ \transpose c d { { c' g' } %{%} } \relative { c' } } { b { e } \fixed c' { c } \language "x" xc }`. -/
def exTree : Doc := grp [lst [.node (.lab (.skip .transpose)) [tn 'c' 0, tn 'd' 0, lst [lst [tn 'c' 1, tn 'g' 1], .node (.lab .comment) []]], rel [lst [tn 'c' 1]]],
  lst [tn 'b' 0, lst [tn 'e' 0], .node (.lab (.skip .fixed)) [tn 'c' 1, lst [tn 'c' 0]], lan ['x'], tx 'c' 0]]

/-- What becomes of it. -/
def exTree' : Doc := grp [lst [.node (.lab (.skip .transpose)) [tn 'c' 0, tn 'd' 0, lst [rel [tn 'c' 1, lst [tn 'c' 0, tn 'g' 1]], .node (.lab .comment) []]], rel [lst [tn 'c' 1]]],
  rel [tn 'c' 1, lst [tn 'b' 0, lst [tn 'e' (-1)], .node (.lab (.skip .fixed)) [tn 'c' 1, lst [tn 'c' 0]], lan ['x'], tx 'c' 0]]]

example : editRange TransposeDoc.exPP2 ⟨true, true⟩ {} [] exTree = .ok exTree' := by with_unfolding_all rfl

/-- `{ c' d' } { e' } { f' g' }`. -/
def exLists : Doc := grp [lst [tn 'c' 1, tn 'd' 1], lst [tn 'e' 1], lst [tn 'f' 1, tn 'g' 1]]

example : editRange exPP ⟨false, false⟩ ⟨[0, 1], some [2, 0]⟩ [] exLists =
    .ok (grp [lst [tn 'c' 1, tn 'd' 1], rel [lst [tn 'e' 0]], lst [tn 'f' 1, tn 'g' 1]]) := by with_unfolding_all rfl
example : editRange exPP ⟨false, false⟩ ⟨[0, 0], some [2]⟩ [] exLists =
    .ok (grp [rel [lst [tn 'c' 0, tn 'd' 0]], rel [lst [tn 'e' 0]], lst [tn 'f' 1, tn 'g' 1]]) := by with_unfolding_all rfl
example : Proper [0, 1] (some [2, 0]) exLists ∧ Proper [0, 0] (some [2]) exLists :=
  ⟨⟨⟨_, rfl⟩, fun e he => by cases he; exact ⟨_, rfl⟩⟩, ⟨_, rfl⟩, fun e he => by cases he; exact ⟨_, rfl⟩⟩
example : Complete [0, 1] (some [2, 0]) [1] (lst [tn 'e' 1]) := by
  refine (whole_iff (r := {}) ⟨.inr ⟨rfl, ?_⟩, ?_⟩ ⟨⟨_, rfl⟩, fun e he => by cases he⟩).1 rfl
  · rintro q ⟨c, i, j, r, s, h1, h2, h3⟩
    cases c with
    | nil => simp at h1 h2; omega
    | cons x c => simp at h1 h2; omega
  · rintro e he q
    cases he
    refine ⟨?_, ?_⟩
    · rintro ⟨c, i, j, r, s, h1, h2, h3⟩
      cases c with
      | nil => simp at h1 h2; omega
      | cons x c => simp at h1 h2; omega
    · rintro ⟨i, r, h⟩
      simp at h

theorem exC (lang : Str) : ∃ name o, Means (TransposeDoc.exPP2 lang).table name o 0 0 := by
  unfold TransposeDoc.exPP2
  split
  · exact ⟨['x', 'c'], -1, List.mem_cons_self⟩
  · exact ⟨['c'], -1, List.mem_cons_self⟩

/-- The octaves that `exTree` is heard in. -/
def exHeard : List Heard := [⟨⟨0, 0, 0⟩, none⟩, ⟨⟨0, 4, 0⟩, none⟩, ⟨⟨0, 0, 0⟩, none⟩, ⟨⟨-1, 6, 0⟩, none⟩, ⟨⟨-1, 2, 0⟩, none⟩, ⟨⟨0, 0, 0⟩, none⟩, ⟨⟨-1, 0, 0⟩, none⟩]

example : Sounds TransposeDoc.exPP2.tables (reference true) (mus [] exTree) exHeard := (sounds_iff _ TransposeDoc.exDict2 _ _ _).2 rfl
example : Sounds TransposeDoc.exPP2.tables (reference true) (mus [] exTree') exHeard := (sounds_iff _ TransposeDoc.exDict2 _ _ _).2 rfl
example : FineL true [] exTree.kids := by
  simp [exTree, FineL, Fine, Doc.kids, grp, lst, rel, lan, tn, tx, Doc.isNote, Doc.lab, FollowedL, Followed, toDocs, toDoc, TransposeDoc.Spec.NoLangL, TransposeDoc.Spec.NoLang,
    musL, TransposeDoc.Spec.mus, TransposeDoc.Spec.musL, MelodyL, Melody, firstLangL, firstLang, Lab.plain, Quiet, QuietL, TransposeDoc.Spec.real, TransposeDoc.Spec.note?, Rel2abs.Doc.lab]

/-! ## Where it goes wrong -/

/-- C91: `Abs2rel` on a list itself does not convert the list, only what is in it. -/
theorem C91_list_itself (pp : Langs) (se : Settings) (L : Str) (l : Lab) (ks : List Doc) (h : QuietL ks) :
    editRange pp se {} L (.node l ks) = .ok (.node l ks) := by
  rw [editRange, (editL_quiet pp se ks ks.length 0 L (by omega) h).1]

example : QuietL [tn 'c' 1, grp [tn 'd' 1]] := by simp [QuietL, Quiet, tn, grp]

/-- C91 fails when the language is set outside the lists that are converted: `\language "x" { xc' }` raises KeyError. -/
theorem C91_language : editRange TransposeDoc.exPP2 ⟨true, true⟩ {} [] (grp [lan ['x'], lst [tx 'c' 1]]) = .error .keyError := by with_unfolding_all rfl

/-- C91 fails when the language is set in the list before its first note: the start pitch is in the new language, but is written before the `\language`.
`{ \language "x" xc' }` becomes `\relative xc' { \language "x" xc }`. -/
theorem C91_start_language : ∃ d d', editRange TransposeDoc.exPP2 ⟨true, true⟩ {} [] d = .ok d' ∧
    Sounds TransposeDoc.exPP2.tables (reference true) (mus [] d) [⟨⟨0, 0, 0⟩, none⟩] ∧
    ∀ hs, ¬ Sounds TransposeDoc.exPP2.tables (reference true) (mus [] d') hs :=
  ⟨grp [lst [lan ['x'], tx 'c' 1]], grp [rel [tx 'c' 1, lst [lan ['x'], tx 'c' 0]]], by with_unfolding_all rfl,
    (sounds_iff _ TransposeDoc.exDict2 _ _ _).2 rfl, fun hs h => by
      have := (sounds_iff _ TransposeDoc.exDict2 _ _ _).1 h
      exact absurd this (fun h => by cases h)⟩

/-- C91: a `\chordmode` is converted when just a part of it is selected.  In `\chordmode { c' e' } { g' }`, with the second note to the last selected, the first note
is changed too. -/
theorem C91_chordmode_selected : ∃ d d' : Doc, editRange exPP ⟨true, true⟩ ⟨[0, 0, 1], some [1, 0]⟩ [] d = .ok d' ∧
    Proper [0, 0, 1] (some [1, 0]) d ∧ ¬ Touched [0, 0, 1] (some [1, 0]) [0, 0, 0] ∧
    get? d [0, 0, 0] = some (tn 'c' 1) ∧ get? d' [0, 1, 0, 0] = some (tn 'c' 0) :=
  ⟨grp [.node (.lab .chordmode) [lst [tn 'c' 1, tn 'e' 1]], lst [tn 'g' 1]],
    grp [rel [tn 'c' 1, .node (.lab .chordmode) [lst [tn 'c' 0, tn 'e' 0]]], rel [tn 'c' 2, lst [tn 'g' 0]]], by with_unfolding_all rfl,
    ⟨⟨_, rfl⟩, fun e he => by cases he; exact ⟨_, rfl⟩⟩, fun h => h.1 ⟨[0, 0], 0, 1, [], [], rfl, rfl, by decide⟩, rfl, rfl⟩

/-- C91 fails when what is selected is in a `\relative`: it is read as absolute music.  In `\relative c' { c { d' } }` the second note is d'', and d' after converting
the list that it is in. -/
theorem C91_inside_relative : ∃ d d' : Doc, editRange exPP ⟨true, true⟩ {} [] d = .ok d' ∧
    Sounds exPP.tables (reference true) (mus [] (rel [tn 'c' 1, d])) [⟨⟨0, 0, 0⟩, none⟩, ⟨⟨1, 1, 0⟩, none⟩] ∧
    Sounds exPP.tables (reference true) (mus [] (rel [tn 'c' 1, d'])) [⟨⟨0, 0, 0⟩, none⟩, ⟨⟨0, 1, 0⟩, none⟩] :=
  ⟨lst [tn 'c' 0, lst [tn 'd' 1]], lst [tn 'c' 0, rel [tn 'c' 1, lst [tn 'd' 0]]], by with_unfolding_all rfl,
    (sounds_iff _ exDict _ _ _).2 rfl, (sounds_iff _ exDict _ _ _).2 rfl⟩

end Quickly.Abs2rel
