import Verif.TransposeBack.Walk
import Verif.TransposeDoc.Props

/-! # Property C92: transposing a document there and back -/

namespace Quickly.TransposeBack

open Quickly.Pitch Quickly.Relative Quickly.Transpose Quickly.TransposeDoc Quickly.TransposeDoc.Spec Quickly.Relative.Spec Spec
open Quickly.Rel2abs (Doc Lab Id tn)
open Quickly.Pitch.Spec (IsDict Means)
open Quickly.Transpose.Spec (staff Valid height)

/-- C92: if a document is transposed, and then the same selection with a transposer that undoes the first for the selected notes, the second transposing succeeds and
gives the very document that was there before: the notes have their names, octaves and places, in relative music, chords, `\fixed`, `\key` and
`\octaveCheck` too.  The selected notes are to be written as quickly writes them, and to have no octave check. -/
theorem C92_back (pp : Langs) (hd : ∀ l, IsDict (pp l).table) (h1 : ∀ l, OneOctave (pp l).table) (t t2 : Transposer)
    (tr tr2 : Pitch → Pitch) (ht : Runs t tr) (ht2 : Runs t2 tr2) (ho : t2.octave = -t.octave) (firstAbs : Bool) (sel : Id → Bool) (L : Str) (d d' : Doc)
    (hn : NotesAre (fun i l nd chk => sel i = true → Returns pp tr tr2 l nd chk) L d)
    (he : editRange ⟨pp, tr, t.octave, firstAbs⟩ sel L d = .ok d') : editRange ⟨pp, tr2, t2.octave, firstAbs⟩ sel L d' = .ok d := by
  have P : Pair ⟨pp, tr, t.octave, firstAbs⟩ ⟨pp, tr2, t2.octave, firstAbs⟩ :=
    ⟨⟨hd, h1, runs_down t tr ht⟩, ⟨hd, h1, runs_down t2 tr2 ht2⟩, rfl, ho, rfl⟩
  unfold editRange at he
  split at he
  · cases he
  · rename_i e
    cases he
    obtain ⟨-, s2, a, -⟩ := visit_back P sel d false (.pitches 0) _ (.pitches 0) L _ _ hn (by simp [Rev]) e
    rw [editRange, a]

mutual
theorem notesAre_mono {P Q : Id → Str → PNode → Option ℤ → Prop} (h : ∀ i l nd chk, P i l nd chk → Q i l nd chk) :
    ∀ (t : Doc) (L : Str), NotesAre P L t → NotesAre Q L t
  | .node i l ks, L, hn => by
    cases l with
    | note p nd chk => rw [NotesAre] at hn ⊢; exact ⟨h _ _ _ _ hn.1, notesAreL_mono h ks L hn.2⟩
    | relative => rw [NotesAre] at hn ⊢; exact ⟨hn.1, notesAreL_mono h ks L hn.2⟩
    | comment => rw [NotesAre] at hn ⊢; exact hn
    | skip kd => cases kd with
      | silent => rw [NotesAre] at hn ⊢; exact hn
      | fixed => rw [NotesAre] at hn ⊢; exact ⟨hn.1, notesAreL_mono h ks L hn.2⟩
      | _ => simp only [NotesAre] at hn ⊢; exact notesAreL_mono h ks L hn
    | _ => simp only [NotesAre] at hn ⊢; exact notesAreL_mono h ks L hn
theorem notesAreL_mono {P Q : Id → Str → PNode → Option ℤ → Prop} (h : ∀ i l nd chk, P i l nd chk → Q i l nd chk) :
    ∀ (ks : List Doc) (L : Str), NotesAreL P L ks → NotesAreL Q L ks
  | [], _, _ => by simp [NotesAreL]
  | k :: ks, L, hn => by
    rw [NotesAreL] at hn ⊢
    exact ⟨notesAre_mono h k L hn.1, notesAreL_mono h ks _ hn.2⟩
end

/-- C92: a transposer from `b` to `a` undoes one from `a` to `b`, for a pitch with an alteration that is not respelled: it moved as many places on the
staff as `b` is from `a`. -/
theorem C92_undone (a b : Pitch) (scale : List ℚ) (tr tr2 : Pitch → Pitch) (ht : Runs (Transposer.make a b scale) tr)
    (ht2 : Runs (Transposer.make b a scale) tr2) (p : Pitch) (hv : Valid p) (h1 : -1 ≤ p.alter) (h2 : p.alter ≤ 1)
    (hs : staff (tr p) - staff p = staff b - staff a) : tr2 (tr p) = p :=
  C21_staff b a scale (tr p) (tr2 (tr p)) (ht2 _) p hv (by omega)
    (by have := C21_same_interval a b scale p (tr p) (ht p); linarith) h1 h2

/-- C92: transposing from `a` to `b` and then from `b` to `a` gives the document that was there before, if no selected note is respelled. -/
theorem C92_swapped (pp : Langs) (hd : ∀ l, IsDict (pp l).table) (h1 : ∀ l, OneOctave (pp l).table) (a b : Pitch) (scale : List ℚ)
    (tr tr2 : Pitch → Pitch) (ht : Runs (Transposer.make a b scale) tr) (ht2 : Runs (Transposer.make b a scale) tr2)
    (firstAbs : Bool) (sel : Id → Bool) (L : Str) (d d' : Doc)
    (hn : NotesAre (fun i l nd chk => sel i = true → chk = none ∧ ∃ p, (pp l).readNode nd = .ok p ∧ (pp l).pitchable p = .ok nd ∧
      Valid p ∧ -1 ≤ p.alter ∧ p.alter ≤ 1 ∧ staff (tr p) - staff p = staff b - staff a) L d)
    (he : editRange ⟨pp, tr, (Transposer.make a b scale).octave, firstAbs⟩ sel L d = .ok d') :
    editRange ⟨pp, tr2, (Transposer.make b a scale).octave, firstAbs⟩ sel L d' = .ok d := by
  refine C92_back pp hd h1 _ _ tr tr2 ht ht2 (by simp [Transposer.make]) firstAbs sel L d d' (notesAre_mono ?_ d L hn) he
  intro i l nd chk h hs
  obtain ⟨hc, p, p1, p2, p3, p4, p5, p6⟩ := h hs
  exact ⟨hc, p, p1, p2, C92_undone a b scale tr tr2 ht ht2 p p3 p4 p5 p6⟩

/-- The hypotheses hold for the example of C90, `{ c' \relative c' { c <e g> } \language "x" \relative { %{%} xc' \octaveCheck xc' xe' } }`, from c to
d and back, with all notes selected but the g of the chord. -/
example : ∃ tr tr2 d', Runs exT tr ∧ Runs (Transposer.make ⟨-1, 1, 0⟩ ⟨-1, 0, 0⟩ majorScale) tr2 ∧
    editRange ⟨exPP2, tr, 0, true⟩ (· != 9) [] exTree = .ok d' ∧ d' ≠ exTree ∧ editRange ⟨exPP2, tr2, 0, true⟩ (· != 9) [] d' = .ok exTree := by
  obtain ⟨tr, ht⟩ := runs_exists exT majorScale rfl
  obtain ⟨tr2, ht2⟩ := runs_exists (Transposer.make ⟨-1, 1, 0⟩ ⟨-1, 0, 0⟩ majorScale) majorScale rfl
  have at' : ∀ p q, exT.transpose 3 p = some (.ok q) → tr p = q :=
    fun p q h => C22_deterministic exT _ _ _ (ht p) ⟨3, h⟩
  have c1 := at' ⟨0, 0, 0⟩ ⟨0, 1, 0⟩ (by decide +kernel)
  have c0 := at' ⟨-1, 0, 0⟩ ⟨-1, 1, 0⟩ (by decide +kernel)
  have e1 := at' ⟨0, 2, 0⟩ ⟨0, 3, 1/2⟩ (by decide +kernel)
  have e0 := at' ⟨-1, 2, 0⟩ ⟨-1, 3, 1/2⟩ (by decide +kernel)
  have g0 := at' ⟨-1, 4, 0⟩ ⟨-1, 5, 0⟩ (by decide +kernel)
  obtain ⟨d', hd'⟩ := C90_succeeds exPP2 exDict2 exOne2 exT tr ht true (· != 9) [] exTree (by
    simp only [exTree, AllNotes, AllNotesL, tn, tx, after, afterL, and_true, true_and, real, Doc.lab]
    refine ⟨?_, ⟨?_, ?_, ?_, ?_, ?_⟩, ?_, ?_, ?_, ?_⟩
    · exact ⟨⟨0, 0, 0⟩, by decide +kernel, ['d'], -1, by rw [c1]; unfold Means; decide +kernel⟩
    · intro i p nd chk gs h
      simp at h
      rw [h.2.2]
      trivial
    · exact ⟨⟨0, 0, 0⟩, by decide +kernel, ['d'], -1, by rw [c1]; unfold Means; decide +kernel⟩
    · exact ⟨⟨-1, 0, 0⟩, by decide +kernel, ['d'], -1, by rw [c0]; unfold Means; decide +kernel⟩
    · exact ⟨⟨-1, 2, 0⟩, by decide +kernel, ['f', 'i', 's'], -1, by rw [e0]; unfold Means; decide +kernel⟩
    · exact ⟨⟨-1, 4, 0⟩, by decide +kernel, ['a'], -1, by rw [g0]; unfold Means; decide +kernel⟩
    · intro i p nd chk gs h
      simp at h
    · exact ⟨⟨0, 0, 0⟩, by decide +kernel, ['x', 'd'], -1, by rw [c1]; unfold Means; decide +kernel⟩
    · exact ⟨⟨0, 0, 0⟩, by decide +kernel, ['x', 'd'], -1, by rw [c1]; unfold Means; decide +kernel⟩
    · exact ⟨⟨0, 2, 0⟩, by decide +kernel, ['x', 'f', 'i', 's'], -1, by rw [e1]; unfold Means; decide +kernel⟩)
  refine ⟨tr, tr2, d', ht, ht2, hd', ?_, ?_⟩
  · rintro rfl
    have r1 : (exPP2 []).readNode ⟨['c'], 1⟩ = .ok ⟨0, 0, 0⟩ := by decide +kernel
    have w1 : (exPP2 []).writeNode ⟨['c'], 1⟩ ⟨0, 1, 0⟩ = .ok ⟨['d'], 1⟩ := by decide +kernel
    unfold editRange at hd'
    split at hd'
    · cases hd'
    · rename_i e
      cases hd'
      simp only [exTree, visit, list, consume, transposeAbs, Processor.process, tn, setNote, down_zero, r1, c1, w1] at e
      simp only [show ((1 : Id) != 9) = true from rfl, if_true] at e
      split at e
      · cases e
      · rename_i e2
        split at e2
        · cases e2
        · cases e2
          simp only [Except.ok.injEq, Prod.mk.injEq, Doc.node.injEq, List.cons.injEq, Lab.note.injEq, PNode.mk.injEq] at e
          exact absurd e.2.2.2.2.1.2.1.2.1.1.1 (by decide)
  · refine C92_swapped exPP2 exDict2 exOne2 ⟨-1, 0, 0⟩ ⟨-1, 1, 0⟩ majorScale tr tr2 ht ht2 true (· != 9) [] exTree d' ?_ hd'
    simp only [exTree, NotesAre, NotesAreL, tn, tx, after, afterL, and_true, true_and, real, Doc.lab]
    refine ⟨?_, ⟨?_, ?_, ?_, ?_, ?_⟩, ?_, ?_, ?_, ?_⟩
    · exact fun _ => ⟨⟨0, 0, 0⟩, by decide +kernel, by decide +kernel, by unfold Valid; decide, by norm_num, by norm_num, by rw [c1]; rfl⟩
    · intro i p nd chk gs h
      simp at h
      rw [h.2.2]
      trivial
    · exact fun _ => ⟨⟨0, 0, 0⟩, by decide +kernel, by decide +kernel, by unfold Valid; decide, by norm_num, by norm_num, by rw [c1]; rfl⟩
    · exact fun _ => ⟨⟨-1, 0, 0⟩, by decide +kernel, by decide +kernel, by unfold Valid; decide, by norm_num, by norm_num, by rw [c0]⟩
    · exact fun _ => ⟨⟨-1, 2, 0⟩, by decide +kernel, by decide +kernel, by unfold Valid; decide, by norm_num, by norm_num, by rw [e0]; rfl⟩
    · exact fun h => absurd h (by decide)
    · intro i p nd chk gs h
      simp at h
    · exact fun _ => ⟨⟨0, 0, 0⟩, by decide +kernel, by decide +kernel, by unfold Valid; decide, by norm_num, by norm_num, by rw [c1]; rfl⟩
    · exact fun _ => ⟨⟨0, 0, 0⟩, by decide +kernel, by decide +kernel, by unfold Valid; decide, by norm_num, by norm_num, by rw [c1]; rfl⟩
    · exact fun _ => ⟨⟨0, 2, 0⟩, by decide +kernel, by decide +kernel, by unfold Valid; decide, by norm_num, by norm_num, by rw [e1]; rfl⟩

/-! ## What does not come back -/

/-- Some names with a double sharp, and two names for e flat. -/
def exTable3 : Table := [(['g'], (-1, 4, 0)), (['g', 'i', 's'], (-1, 4, 1/2)), (['f', 'i', 's', 'i', 's'], (-1, 3, 1)),
  (['e', 's'], (-1, 2, -1/2)), (['e', 'e', 's'], (-1, 2, -1/2)), (['f'], (-1, 3, 0))]

/-- A processor for them. -/
def exPP3 : Langs := fun _ => { lang := .other, table := exTable3 }

/-- C92 fails for a note that is respelled: up half a tone `fisis` becomes `gis`, and half a tone down that is `g`. -/
theorem C92_respelled : ∃ tr tr2, Runs (Transposer.make ⟨-1, 0, 0⟩ ⟨-1, 0, 1/2⟩ majorScale) tr ∧ Runs (Transposer.make ⟨-1, 0, 1/2⟩ ⟨-1, 0, 0⟩ majorScale) tr2 ∧
    editRange ⟨exPP3, tr, 0, true⟩ (fun _ => true) [] (.node 0 (.note true ⟨['f', 'i', 's', 'i', 's'], 0⟩ none) []) =
      .ok (.node 0 (.note true ⟨['g', 'i', 's'], 0⟩ none) []) ∧
    editRange ⟨exPP3, tr2, 0, true⟩ (fun _ => true) [] (.node 0 (.note true ⟨['g', 'i', 's'], 0⟩ none) []) = .ok (.node 0 (.note true ⟨['g'], 0⟩ none) []) := by
  obtain ⟨tr, ht⟩ := runs_exists (Transposer.make ⟨-1, 0, 0⟩ ⟨-1, 0, 1/2⟩ majorScale) majorScale rfl
  obtain ⟨tr2, ht2⟩ := runs_exists (Transposer.make ⟨-1, 0, 1/2⟩ ⟨-1, 0, 0⟩ majorScale) majorScale rfl
  have c1 : tr ⟨-1, 3, 1⟩ = ⟨-1, 4, 1/2⟩ := C22_deterministic _ _ _ _ (ht _) ⟨3, by decide +kernel⟩
  have c2 : tr2 ⟨-1, 4, 1/2⟩ = ⟨-1, 4, 0⟩ := C22_deterministic _ _ _ _ (ht2 _) ⟨3, by decide +kernel⟩
  have r1 : (exPP3 []).readNode ⟨['f', 'i', 's', 'i', 's'], 0⟩ = .ok ⟨-1, 3, 1⟩ := by decide +kernel
  have r2 : (exPP3 []).readNode ⟨['g', 'i', 's'], 0⟩ = .ok ⟨-1, 4, 1/2⟩ := by decide +kernel
  have w1 : (exPP3 []).writeNode ⟨['f', 'i', 's', 'i', 's'], 0⟩ ⟨-1, 4, 1/2⟩ = .ok ⟨['g', 'i', 's'], 0⟩ := by decide +kernel
  have w2 : (exPP3 []).writeNode ⟨['g', 'i', 's'], 0⟩ ⟨-1, 4, 0⟩ = .ok ⟨['g'], 0⟩ := by decide +kernel
  refine ⟨tr, tr2, ht, ht2, ?_, ?_⟩ <;>
    simp only [editRange, visit, list, consume, transposeAbs, Processor.process, setNote, down_zero, r1, r2, c1, c2, w1, w2, if_true]

/-- C92 fails for a note that has another name than quickly gives it: `es` becomes `f`, and that becomes `ees`. -/
theorem C92_other_name : ∃ tr tr2, Runs (Transposer.make ⟨-1, 2, -1/2⟩ ⟨-1, 3, 0⟩ majorScale) tr ∧ Runs (Transposer.make ⟨-1, 3, 0⟩ ⟨-1, 2, -1/2⟩ majorScale) tr2 ∧
    editRange ⟨exPP3, tr, 0, true⟩ (fun _ => true) [] (.node 0 (.note true ⟨['e', 's'], 0⟩ none) []) = .ok (.node 0 (.note true ⟨['f'], 0⟩ none) []) ∧
    editRange ⟨exPP3, tr2, 0, true⟩ (fun _ => true) [] (.node 0 (.note true ⟨['f'], 0⟩ none) []) = .ok (.node 0 (.note true ⟨['e', 'e', 's'], 0⟩ none) []) := by
  obtain ⟨tr, ht⟩ := runs_exists (Transposer.make ⟨-1, 2, -1/2⟩ ⟨-1, 3, 0⟩ majorScale) majorScale rfl
  obtain ⟨tr2, ht2⟩ := runs_exists (Transposer.make ⟨-1, 3, 0⟩ ⟨-1, 2, -1/2⟩ majorScale) majorScale rfl
  have c1 : tr ⟨-1, 2, -1/2⟩ = ⟨-1, 3, 0⟩ := C22_deterministic _ _ _ _ (ht _) ⟨3, by decide +kernel⟩
  have c2 : tr2 ⟨-1, 3, 0⟩ = ⟨-1, 2, -1/2⟩ := C22_deterministic _ _ _ _ (ht2 _) ⟨3, by decide +kernel⟩
  have r1 : (exPP3 []).readNode ⟨['e', 's'], 0⟩ = .ok ⟨-1, 2, -1/2⟩ := by decide +kernel
  have r2 : (exPP3 []).readNode ⟨['f'], 0⟩ = .ok ⟨-1, 3, 0⟩ := by decide +kernel
  have w1 : (exPP3 []).writeNode ⟨['e', 's'], 0⟩ ⟨-1, 3, 0⟩ = .ok ⟨['f'], 0⟩ := by decide +kernel
  have w2 : (exPP3 []).writeNode ⟨['f'], 0⟩ ⟨-1, 2, -1/2⟩ = .ok ⟨['e', 'e', 's'], 0⟩ := by decide +kernel
  refine ⟨tr, tr2, ht, ht2, ?_, ?_⟩ <;>
    simp only [editRange, visit, list, consume, transposeAbs, Processor.process, setNote, down_zero, r1, r2, c1, c2, w1, w2, if_true]

/-- C92 fails for octave checks in a `\relative` with a start pitch: an octave up and down again, the checked note of `\relative c' { c=' }` is `c=''`.
The octave check is written from pitches that have been lowered by the octaves of the transposer. -/
theorem C92_octave_check : ∃ tr tr2, Runs exOct tr ∧ Runs (Transposer.make ⟨0, 0, 0⟩ ⟨-1, 0, 0⟩ majorScale) tr2 ∧
    editRange ⟨exPP, tr, 1, true⟩ (fun _ => true) [] (.node 0 .relative [tn 1 'c' 1, .node 2 .other [.node 3 (.note true ⟨['c'], 0⟩ (some 1)) []]]) =
      .ok (.node 0 .relative [tn 1 'c' 2, .node 2 .other [.node 3 (.note true ⟨['c'], 0⟩ (some 1)) []]]) ∧
    editRange ⟨exPP, tr2, -1, true⟩ (fun _ => true) [] (.node 0 .relative [tn 1 'c' 2, .node 2 .other [.node 3 (.note true ⟨['c'], 0⟩ (some 1)) []]]) =
      .ok (.node 0 .relative [tn 1 'c' 1, .node 2 .other [.node 3 (.note true ⟨['c'], 0⟩ (some 2)) []]]) := by
  obtain ⟨tr, ht⟩ := runs_exists exOct majorScale rfl
  obtain ⟨tr2, ht2⟩ := runs_exists (Transposer.make ⟨0, 0, 0⟩ ⟨-1, 0, 0⟩ majorScale) majorScale rfl
  have c1 : tr ⟨0, 0, 0⟩ = ⟨1, 0, 0⟩ := C22_deterministic _ _ _ _ (ht _) ⟨3, by decide +kernel⟩
  have c0 : tr ⟨-1, 0, 0⟩ = ⟨0, 0, 0⟩ := C22_deterministic _ _ _ _ (ht _) ⟨3, by decide +kernel⟩
  have c2 : tr2 ⟨1, 0, 0⟩ = ⟨0, 0, 0⟩ := C22_deterministic _ _ _ _ (ht2 _) ⟨3, by decide +kernel⟩
  have c3 : tr2 ⟨2, 0, 0⟩ = ⟨1, 0, 0⟩ := C22_deterministic _ _ _ _ (ht2 _) ⟨3, by decide +kernel⟩
  have r0 : (exPP []).readNode ⟨['c'], 0⟩ = .ok ⟨-1, 0, 0⟩ := by decide +kernel
  have r1 : (exPP []).readNode ⟨['c'], 1⟩ = .ok ⟨0, 0, 0⟩ := by decide +kernel
  have r2 : (exPP []).readNode ⟨['c'], 2⟩ = .ok ⟨1, 0, 0⟩ := by decide +kernel
  have w1 : (exPP []).writeNode ⟨['c'], 1⟩ ⟨1, 0, 0⟩ = .ok ⟨['c'], 2⟩ := by decide +kernel
  have w2 : (exPP []).writeNode ⟨['c'], 2⟩ ⟨0, 0, 0⟩ = .ok ⟨['c'], 1⟩ := by decide +kernel
  have w0 : (exPP []).writeNode ⟨['c'], 0⟩ ⟨-1, 0, 0⟩ = .ok ⟨['c'], 0⟩ := by decide +kernel
  refine ⟨tr, tr2, ht, ht2, ?_, ?_⟩ <;>
    simp [editRange, visit, skip, first, list, consume, transposeStart, transposeNote, tn, setNote, down, Doc.lab, Pitch.makeAbsolute, Pitch.makeRelative,
      Last.prev, c1, c0, c2, c3, r0, r1, r2, w0, w1, w2]

end Quickly.TransposeBack
