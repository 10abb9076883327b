import Verif.TransposeTwice.Walk
import Verif.TransposeBack.Props

/-! # Property C107: transposing a document twice -/

namespace Quickly.TransposeTwice

open Quickly.Pitch Quickly.Relative Quickly.Transpose Quickly.TransposeDoc Quickly.TransposeDoc.Spec Quickly.Relative.Spec Quickly.TransposeBack.Spec Spec
open Quickly.Rel2abs (Doc Lab Id tn)
open Quickly.Pitch.Spec (IsDict Means)
open Quickly.Transpose.Spec (staff Valid height)
open Quickly.TransposeBack (notesAre_mono)

/-- C107: if a document is transposed, and then the same selection is transposed again, transposing the document once with a transposer that does
to the selected notes what the two do succeeds, and gives the same document: the same names, octaves and places, in relative music, chords, `\fixed`,
`\key` and `\octaveCheck` too.  The selected notes are to be written as quickly writes them, and to have no octave check. -/
theorem C107_twice (pp : Langs) (hd : ∀ l, IsDict (pp l).table) (h1 : ∀ l, OneOctave (pp l).table) (t t2 t3 : Transposer)
    (tr tr2 tr3 : Pitch → Pitch) (ht : Runs t tr) (ht2 : Runs t2 tr2) (ht3 : Runs t3 tr3) (ho : t3.octave = t.octave + t2.octave) (firstAbs : Bool)
    (sel : Id → Bool) (L : Str) (d d' d2 : Doc) (hn : NotesAre (fun i l nd chk => sel i = true → Follows pp tr tr2 tr3 l nd chk) L d)
    (he : editRange ⟨pp, tr, t.octave, firstAbs⟩ sel L d = .ok d') (he2 : editRange ⟨pp, tr2, t2.octave, firstAbs⟩ sel L d' = .ok d2) :
    editRange ⟨pp, tr3, t3.octave, firstAbs⟩ sel L d = .ok d2 := by
  have P : Trip ⟨pp, tr, t.octave, firstAbs⟩ ⟨pp, tr2, t2.octave, firstAbs⟩ ⟨pp, tr3, t3.octave, firstAbs⟩ :=
    ⟨⟨hd, h1, runs_down t tr ht⟩, ⟨hd, h1, runs_down t2 tr2 ht2⟩, ⟨hd, h1, runs_down t3 tr3 ht3⟩, rfl, rfl, ho, rfl, rfl⟩
  unfold editRange at he
  split at he
  · cases he
  · rename_i e
    cases he
    unfold editRange at he2
    split at he2
    · cases he2
    · rename_i e2
      cases he2
      obtain ⟨-, -, s3, a, -⟩ := visit_twice P sel d false (.pitches 0) _ (.pitches 0) _ (.pitches 0) L _ _ _ _ hn (by simp [Tri]) e e2
      rw [editRange, a]

/-- C107: a transposer from `a` to `c` does what one from `a` to `b` and one from `b` to `c` do, for a pitch that the two do not respell: they moved it as
many places on the staff as `c` is from `a`. -/
theorem C107_intervals (a b c : Pitch) (scale : List ℚ) (hs : Quickly.Transpose.Spec.Narrow scale) (tr tr2 tr3 : Pitch → Pitch)
    (ht : Runs (Transposer.make a b scale) tr) (ht2 : Runs (Transposer.make b c scale) tr2) (ht3 : Runs (Transposer.make a c scale) tr3) (p : Pitch)
    (hst : staff (tr2 (tr p)) - staff p = staff c - staff a) : tr3 p = tr2 (tr p) := by
  obtain ⟨b1, b2, b3, b4⟩ := C22_bounds _ scale rfl hs _ _ (ht2 (tr p))
  refine C21_staff a c scale p (tr3 p) (ht3 p) (tr2 (tr p)) ⟨b1, by omega⟩ hst ?_ b3 b4
  have i1 := C21_same_interval a b scale p (tr p) (ht p)
  have i2 := C21_same_interval b c scale (tr p) (tr2 (tr p)) (ht2 _)
  linarith

/-- C107: transposing from `a` to `b` and then from `b` to `c` is transposing from `a` to `c`, if no selected note is respelled. -/
theorem C107_chain (pp : Langs) (hd : ∀ l, IsDict (pp l).table) (h1 : ∀ l, OneOctave (pp l).table) (a b c : Pitch) (scale : List ℚ)
    (hs : Quickly.Transpose.Spec.Narrow scale) (tr tr2 tr3 : Pitch → Pitch)
    (ht : Runs (Transposer.make a b scale) tr) (ht2 : Runs (Transposer.make b c scale) tr2) (ht3 : Runs (Transposer.make a c scale) tr3)
    (firstAbs : Bool) (sel : Id → Bool) (L : Str) (d d' d2 : Doc)
    (hn : NotesAre (fun i l nd chk => sel i = true → chk = none ∧ ∃ p, (pp l).readNode nd = .ok p ∧ (pp l).pitchable p = .ok nd ∧
      staff (tr2 (tr p)) - staff p = staff c - staff a) L d)
    (he : editRange ⟨pp, tr, (Transposer.make a b scale).octave, firstAbs⟩ sel L d = .ok d')
    (he2 : editRange ⟨pp, tr2, (Transposer.make b c scale).octave, firstAbs⟩ sel L d' = .ok d2) :
    editRange ⟨pp, tr3, (Transposer.make a c scale).octave, firstAbs⟩ sel L d = .ok d2 := by
  refine C107_twice pp hd h1 _ _ _ tr tr2 tr3 ht ht2 ht3 (by simp [Transposer.make]) firstAbs sel L d d' d2 (notesAre_mono ?_ d L hn) he he2
  intro i l nd chk h hsel
  obtain ⟨hc, p, p1, p2, p3⟩ := h hsel
  exact ⟨hc, p, p1, p2, C107_intervals a b c scale hs tr tr2 tr3 ht ht2 ht3 p p3⟩

/-- `\relative c' { c <e g> }` -/
def exRel (s : ℤ) (n n2 : Str) (m : Str) : Doc := .node 0 .relative [.node 1 (.note true ⟨n, s⟩ none) [], .node 2 .other [.node 3 (.note true ⟨n2, 0⟩ none) [],
  .node 4 .chord [.node 5 .other [.node 6 (.note true ⟨m, 0⟩ none) [], tn 7 'g' 0]]]]

/-- The hypotheses hold for `\relative c' { c <e g> }`, an octave up and then a tone up, with all notes selected but the g of the chord: it becomes
`\relative c'' { c <e g> }` and `\relative d'' { d <fis g> }`. -/
example : ∃ tr tr2 tr3, Runs (Transposer.make ⟨-1, 0, 0⟩ ⟨0, 0, 0⟩ majorScale) tr ∧ Runs (Transposer.make ⟨0, 0, 0⟩ ⟨0, 1, 0⟩ majorScale) tr2 ∧
    Runs (Transposer.make ⟨-1, 0, 0⟩ ⟨0, 1, 0⟩ majorScale) tr3 ∧
    editRange ⟨exPP, tr, 1, true⟩ (· != 7) [] (exRel 1 ['c'] ['c'] ['e']) = .ok (exRel 2 ['c'] ['c'] ['e']) ∧
    editRange ⟨exPP, tr2, 0, true⟩ (· != 7) [] (exRel 2 ['c'] ['c'] ['e']) = .ok (exRel 2 ['d'] ['d'] ['f', 'i', 's']) ∧
    editRange ⟨exPP, tr3, 1, true⟩ (· != 7) [] (exRel 1 ['c'] ['c'] ['e']) = .ok (exRel 2 ['d'] ['d'] ['f', 'i', 's']) := by
  obtain ⟨tr, ht⟩ := runs_exists (Transposer.make ⟨-1, 0, 0⟩ ⟨0, 0, 0⟩ majorScale) majorScale rfl
  obtain ⟨tr2, ht2⟩ := runs_exists (Transposer.make ⟨0, 0, 0⟩ ⟨0, 1, 0⟩ majorScale) majorScale rfl
  obtain ⟨tr3, ht3⟩ := runs_exists (Transposer.make ⟨-1, 0, 0⟩ ⟨0, 1, 0⟩ majorScale) majorScale rfl
  have c1 : tr ⟨0, 0, 0⟩ = ⟨1, 0, 0⟩ := C22_deterministic _ _ _ _ (ht _) ⟨3, by decide +kernel⟩
  have c0 : tr ⟨-1, 0, 0⟩ = ⟨0, 0, 0⟩ := C22_deterministic _ _ _ _ (ht _) ⟨3, by decide +kernel⟩
  have e0 : tr ⟨-1, 2, 0⟩ = ⟨0, 2, 0⟩ := C22_deterministic _ _ _ _ (ht _) ⟨3, by decide +kernel⟩
  have c2 : tr2 ⟨1, 0, 0⟩ = ⟨1, 1, 0⟩ := C22_deterministic _ _ _ _ (ht2 _) ⟨3, by decide +kernel⟩
  have c3 : tr2 ⟨0, 0, 0⟩ = ⟨0, 1, 0⟩ := C22_deterministic _ _ _ _ (ht2 _) ⟨3, by decide +kernel⟩
  have e2 : tr2 ⟨1, 2, 0⟩ = ⟨1, 3, 1/2⟩ := C22_deterministic _ _ _ _ (ht2 _) ⟨3, by decide +kernel⟩
  have e3 : tr2 ⟨0, 2, 0⟩ = ⟨0, 3, 1/2⟩ := C22_deterministic _ _ _ _ (ht2 _) ⟨3, by decide +kernel⟩
  have r0 : (exPP []).readNode ⟨['c'], 0⟩ = .ok ⟨-1, 0, 0⟩ := by decide +kernel
  have r1 : (exPP []).readNode ⟨['c'], 1⟩ = .ok ⟨0, 0, 0⟩ := by decide +kernel
  have r2 : (exPP []).readNode ⟨['c'], 2⟩ = .ok ⟨1, 0, 0⟩ := by decide +kernel
  have r3 : (exPP []).readNode ⟨['e'], 0⟩ = .ok ⟨-1, 2, 0⟩ := by decide +kernel
  have r4 : (exPP []).readNode ⟨['g'], 0⟩ = .ok ⟨-1, 4, 0⟩ := by decide +kernel
  have w1 : (exPP []).writeNode ⟨['c'], 1⟩ ⟨1, 0, 0⟩ = .ok ⟨['c'], 2⟩ := by decide +kernel
  have w2 : (exPP []).writeNode ⟨['c'], 0⟩ ⟨-1, 0, 0⟩ = .ok ⟨['c'], 0⟩ := by decide +kernel
  have w3 : (exPP []).writeNode ⟨['e'], 0⟩ ⟨-1, 2, 0⟩ = .ok ⟨['e'], 0⟩ := by decide +kernel
  have w4 : (exPP []).writeNode ⟨['c'], 2⟩ ⟨1, 1, 0⟩ = .ok ⟨['d'], 2⟩ := by decide +kernel
  have w5 : (exPP []).writeNode ⟨['c'], 0⟩ ⟨-1, 1, 0⟩ = .ok ⟨['d'], 0⟩ := by decide +kernel
  have w6 : (exPP []).writeNode ⟨['e'], 0⟩ ⟨-1, 3, 1/2⟩ = .ok ⟨['f', 'i', 's'], 0⟩ := by decide +kernel
  have f1 : editRange ⟨exPP, tr, 1, true⟩ (· != 7) [] (exRel 1 ['c'] ['c'] ['e']) = .ok (exRel 2 ['c'] ['c'] ['e']) := by
    simp [editRange, visit, skip, first, list, consume, transposeStart, transposeNote, exRel, tn, setNote, down, Doc.lab, Pitch.makeAbsolute,
      Pitch.makeRelative, Last.prev, relLast, c1, c0, e0, r0, r1, r3, r4, w1, w2, w3]
  have f2 : editRange ⟨exPP, tr2, 0, true⟩ (· != 7) [] (exRel 2 ['c'] ['c'] ['e']) = .ok (exRel 2 ['d'] ['d'] ['f', 'i', 's']) := by
    simp [editRange, visit, skip, first, list, consume, transposeStart, transposeNote, exRel, tn, setNote, down, Doc.lab, Pitch.makeAbsolute,
      Pitch.makeRelative, Last.prev, relLast, -one_div, c2, e2, r0, r2, r3, r4, w4, w5, w6]
  refine ⟨tr, tr2, tr3, ht, ht2, ht3, f1, f2, ?_⟩
  refine C107_chain exPP exDict exOne ⟨-1, 0, 0⟩ ⟨0, 0, 0⟩ ⟨0, 1, 0⟩ majorScale C22_major_scale tr tr2 tr3 ht ht2 ht3 true (· != 7) [] _ _ _ ?_ f1 f2
  simp only [exRel, NotesAre, NotesAreL, tn, after, afterL, and_true, true_and, real, Doc.lab]
  refine ⟨?_, ?_, ?_, ?_, ?_⟩
  · intro i p nd chk gs h
    simp at h
    rw [h.2.2]
    trivial
  · exact fun _ => ⟨⟨0, 0, 0⟩, r1, by decide +kernel, by rw [c1, c2]; rfl⟩
  · exact fun _ => ⟨⟨-1, 0, 0⟩, r0, by decide +kernel, by rw [c0, c3]⟩
  · exact fun _ => ⟨⟨-1, 2, 0⟩, r3, by decide +kernel, by rw [e0, e3]; rfl⟩
  · exact fun h => absurd h (by decide)

/-! ## What is not the same -/

/-- Some names with double sharps. -/
def exTable4 : Table := [(['g', 'i', 's'], (-1, 4, 1/2)), (['f', 'i', 's', 'i', 's'], (-1, 3, 1)), (['g', 'i', 's', 'i', 's'], (-1, 4, 1)), (['a'], (-1, 5, 0))]

/-- A processor for them. -/
def exPP4 : Langs := fun _ => { lang := .other, table := exTable4 }

/-- C107 fails for a note that is respelled: from c to cis and from cis to d `fisis` becomes `gis` and `a`, but from c to d it becomes `gisis`. -/
theorem C107_respelled : ∃ tr tr2 tr3, Runs (Transposer.make ⟨-1, 0, 0⟩ ⟨-1, 0, 1/2⟩ majorScale) tr ∧
    Runs (Transposer.make ⟨-1, 0, 1/2⟩ ⟨-1, 1, 0⟩ majorScale) tr2 ∧ Runs (Transposer.make ⟨-1, 0, 0⟩ ⟨-1, 1, 0⟩ majorScale) tr3 ∧
    editRange ⟨exPP4, tr, 0, true⟩ (fun _ => true) [] (.node 0 (.note true ⟨['f', 'i', 's', 'i', 's'], 0⟩ none) []) =
      .ok (.node 0 (.note true ⟨['g', 'i', 's'], 0⟩ none) []) ∧
    editRange ⟨exPP4, tr2, 0, true⟩ (fun _ => true) [] (.node 0 (.note true ⟨['g', 'i', 's'], 0⟩ none) []) = .ok (.node 0 (.note true ⟨['a'], 0⟩ none) []) ∧
    editRange ⟨exPP4, tr3, 0, true⟩ (fun _ => true) [] (.node 0 (.note true ⟨['f', 'i', 's', 'i', 's'], 0⟩ none) []) =
      .ok (.node 0 (.note true ⟨['g', 'i', 's', 'i', 's'], 0⟩ none) []) := by
  obtain ⟨tr, ht⟩ := runs_exists (Transposer.make ⟨-1, 0, 0⟩ ⟨-1, 0, 1/2⟩ majorScale) majorScale rfl
  obtain ⟨tr2, ht2⟩ := runs_exists (Transposer.make ⟨-1, 0, 1/2⟩ ⟨-1, 1, 0⟩ majorScale) majorScale rfl
  obtain ⟨tr3, ht3⟩ := runs_exists (Transposer.make ⟨-1, 0, 0⟩ ⟨-1, 1, 0⟩ majorScale) majorScale rfl
  have c1 : tr ⟨-1, 3, 1⟩ = ⟨-1, 4, 1/2⟩ := C22_deterministic _ _ _ _ (ht _) ⟨3, by decide +kernel⟩
  have c2 : tr2 ⟨-1, 4, 1/2⟩ = ⟨-1, 5, 0⟩ := C22_deterministic _ _ _ _ (ht2 _) ⟨3, by decide +kernel⟩
  have c3 : tr3 ⟨-1, 3, 1⟩ = ⟨-1, 4, 1⟩ := C22_deterministic _ _ _ _ (ht3 _) ⟨3, by decide +kernel⟩
  have r1 : (exPP4 []).readNode ⟨['f', 'i', 's', 'i', 's'], 0⟩ = .ok ⟨-1, 3, 1⟩ := by decide +kernel
  have r2 : (exPP4 []).readNode ⟨['g', 'i', 's'], 0⟩ = .ok ⟨-1, 4, 1/2⟩ := by decide +kernel
  have w1 : (exPP4 []).writeNode ⟨['f', 'i', 's', 'i', 's'], 0⟩ ⟨-1, 4, 1/2⟩ = .ok ⟨['g', 'i', 's'], 0⟩ := by decide +kernel
  have w2 : (exPP4 []).writeNode ⟨['g', 'i', 's'], 0⟩ ⟨-1, 5, 0⟩ = .ok ⟨['a'], 0⟩ := by decide +kernel
  have w3 : (exPP4 []).writeNode ⟨['f', 'i', 's', 'i', 's'], 0⟩ ⟨-1, 4, 1⟩ = .ok ⟨['g', 'i', 's', 'i', 's'], 0⟩ := by decide +kernel
  refine ⟨tr, tr2, tr3, ht, ht2, ht3, ?_, ?_, ?_⟩ <;>
    simp only [editRange, visit, list, consume, transposeAbs, Processor.process, setNote, down_zero, r1, r2, c1, c2, c3, w1, w2, w3, if_true]

/-- C107 fails for octave checks in a `\relative` with a start pitch: an octave up and another one, the checked note of `\relative c' { c=' }` is `c=''`,
but two octaves up it is `c='`.  It sounds c''', so both are wrong. -/
theorem C107_octave_check : ∃ tr tr3, Runs exOct tr ∧ Runs (Transposer.make ⟨-1, 0, 0⟩ ⟨1, 0, 0⟩ majorScale) tr3 ∧
    editRange ⟨exPP, tr, 1, true⟩ (fun _ => true) [] (.node 0 .relative [tn 1 'c' 1, .node 2 .other [.node 3 (.note true ⟨['c'], 0⟩ (some 1)) []]]) =
      .ok (.node 0 .relative [tn 1 'c' 2, .node 2 .other [.node 3 (.note true ⟨['c'], 0⟩ (some 1)) []]]) ∧
    editRange ⟨exPP, tr, 1, true⟩ (fun _ => true) [] (.node 0 .relative [tn 1 'c' 2, .node 2 .other [.node 3 (.note true ⟨['c'], 0⟩ (some 1)) []]]) =
      .ok (.node 0 .relative [tn 1 'c' 3, .node 2 .other [.node 3 (.note true ⟨['c'], 0⟩ (some 2)) []]]) ∧
    editRange ⟨exPP, tr3, 2, true⟩ (fun _ => true) [] (.node 0 .relative [tn 1 'c' 1, .node 2 .other [.node 3 (.note true ⟨['c'], 0⟩ (some 1)) []]]) =
      .ok (.node 0 .relative [tn 1 'c' 3, .node 2 .other [.node 3 (.note true ⟨['c'], 0⟩ (some 1)) []]]) := by
  obtain ⟨tr, ht⟩ := runs_exists exOct majorScale rfl
  obtain ⟨tr3, ht3⟩ := runs_exists (Transposer.make ⟨-1, 0, 0⟩ ⟨1, 0, 0⟩ majorScale) majorScale rfl
  have c1 : tr ⟨0, 0, 0⟩ = ⟨1, 0, 0⟩ := C22_deterministic _ _ _ _ (ht _) ⟨3, by decide +kernel⟩
  have c0 : tr ⟨-1, 0, 0⟩ = ⟨0, 0, 0⟩ := C22_deterministic _ _ _ _ (ht _) ⟨3, by decide +kernel⟩
  have c2 : tr ⟨1, 0, 0⟩ = ⟨2, 0, 0⟩ := C22_deterministic _ _ _ _ (ht _) ⟨3, by decide +kernel⟩
  have d1 : tr3 ⟨0, 0, 0⟩ = ⟨2, 0, 0⟩ := C22_deterministic _ _ _ _ (ht3 _) ⟨3, by decide +kernel⟩
  have d0 : tr3 ⟨-2, 0, 0⟩ = ⟨0, 0, 0⟩ := C22_deterministic _ _ _ _ (ht3 _) ⟨3, by decide +kernel⟩
  have r0 : (exPP []).readNode ⟨['c'], 0⟩ = .ok ⟨-1, 0, 0⟩ := by decide +kernel
  have r1 : (exPP []).readNode ⟨['c'], 1⟩ = .ok ⟨0, 0, 0⟩ := by decide +kernel
  have r2 : (exPP []).readNode ⟨['c'], 2⟩ = .ok ⟨1, 0, 0⟩ := by decide +kernel
  have w1 : (exPP []).writeNode ⟨['c'], 1⟩ ⟨1, 0, 0⟩ = .ok ⟨['c'], 2⟩ := by decide +kernel
  have w2 : (exPP []).writeNode ⟨['c'], 2⟩ ⟨2, 0, 0⟩ = .ok ⟨['c'], 3⟩ := by decide +kernel
  have w3 : (exPP []).writeNode ⟨['c'], 1⟩ ⟨2, 0, 0⟩ = .ok ⟨['c'], 3⟩ := by decide +kernel
  have w0 : (exPP []).writeNode ⟨['c'], 0⟩ ⟨-1, 0, 0⟩ = .ok ⟨['c'], 0⟩ := by decide +kernel
  refine ⟨tr, tr3, ht, ht3, ?_, ?_, ?_⟩ <;>
    simp [editRange, visit, skip, first, list, consume, transposeStart, transposeNote, tn, setNote, down, Doc.lab, Pitch.makeAbsolute, Pitch.makeRelative,
      Last.prev, c1, c0, c2, d1, d0, r0, r1, r2, w0, w1, w2, w3]

end Quickly.TransposeTwice
