import Verif.TransposeAbs.Doc
import Verif.TransposeDoc.Props
import Verif.Rel2abs.Props

/-! # Property C108: transposing and converting to absolute music -/

namespace Quickly.TransposeAbs

open Quickly.Pitch Quickly.Relative Quickly.Transpose
open Quickly.TransposeDoc (visit visit_same list_cons)
open Quickly.TransposeAbs.Spec (Apt AptL)
open Quickly.Rel2abs (Doc Lab Id Heap out outL edit_document tn result exCfg)
open Quickly.Rel2abs.Spec (Shows Linked NoRel NoRelL Nice NiceL RelOk OneLang OneLangL Tidy TidyL LastChecks LastChecksL ids idsL real firsts)
open Quickly.Pitch.Spec (IsDict)
open Quickly.Relative.Spec (OneOctave Runs)

/-- `rel2abs` on the node `i` of any memory that shows the document `T` comes to an end, and then the memory shows `T'`. -/
def Converts (pp : Langs) (firstAbs : Bool) (L : Str) (i : Id) (T T' : Doc) : Prop :=
  ∀ h, Linked h → Shows h T → h.lang = L → ∃ h', (∃ N, ∀ f ≥ N, Rel2abs.editRange ⟨pp, firstAbs⟩ {} f h i = some (.ok h')) ∧ Shows h' T' ∧ h'.lang = L

theorem converts_of_out (pp : Langs) (firstAbs : Bool) (L : Str) (i : Id) (l : Lab) (ks as : List Doc) (hlab : l ≠ .relative)
    (hn : (ids (.node i l ks)).Nodup) (hni : Nice (.node i l ks)) (hla : OneLang L (.node i l ks)) (h : out ⟨pp, firstAbs⟩ L (.node i l ks) = .ok as) :
    ∃ T', as = [T'] ∧ T'.id = i ∧ T'.lab = l ∧ Converts pp firstAbs L i (.node i l ks) T' := by
  rw [out, if_neg hlab] at h
  split at h
  · cases h
  · rename_i ks' e
    cases h
    refine ⟨_, rfl, rfl, rfl, fun h hl hs hL => ?_⟩
    subst hL
    obtain ⟨h', a, b, d, -⟩ := edit_document ⟨pp, firstAbs⟩ h hl i l ks ks' hlab hs hn hni hla e
    exact ⟨h', a, b, d⟩

/-- C108: if a document can be transposed, then it can also be converted to absolute music and transposed after that; and converting the transposed document
gives the same document: the same nodes with the same names and octaves. -/
theorem C108_either_order (pp : Langs) (hd : ∀ l, IsDict (pp l).table) (h1 : ∀ l, OneOctave (pp l).table) (t : Transposer) (tr : Pitch → Pitch) (ht : Runs t tr)
    (firstAbs : Bool) (L : Str) (i : Id) (l : Lab) (ks : List Doc) (T2 : Doc) (hlab : l ≠ .relative) (hn : (ids (.node i l ks)).Nodup)
    (hni : Nice (.node i l ks)) (hti : Tidy false (.node i l ks)) (hla : OneLang L (.node i l ks)) (hap : Apt false (.node i l ks))
    (he : TransposeDoc.editRange ⟨pp, tr, t.octave, firstAbs⟩ (fun _ => true) L (.node i l ks) = .ok T2) :
    ∃ T1 T3, Converts pp firstAbs L i (.node i l ks) T1 ∧ TransposeDoc.editRange ⟨pp, tr, t.octave, firstAbs⟩ (fun _ => true) L T1 = .ok T3 ∧
      Converts pp firstAbs L i T2 T3 := by
  have g : Good ⟨pp, tr, t.octave, firstAbs⟩ := ⟨hd, h1, runs_down t tr ht⟩
  unfold TransposeDoc.editRange at he
  split at he
  · cases he
  · rename_i s' L' T2' e
    cases he
    obtain ⟨as, bs, a, b, d⟩ := out_conv g _ _ _ _ _ hni hti hap hla e
    have hs := visit_same _ _ _ _ _ _ _ _ _ e
    obtain ⟨T1, rfl, -, -, c1⟩ := converts_of_out pp firstAbs L i l ks as hlab hn hni hla a
    have hid := same_ids _ _ _ hs
    have hla2 := same_oneLang _ L _ _ hs hla
    have hni2 := same_nice _ _ _ hs hni
    obtain ⟨j, m, gs⟩ := T2
    have hlab2 : m ≠ .relative := fun x => hlab ((same_lab hs .relative (by simp)).2 x)
    rw [TransposeDoc.Spec.Same] at hs
    obtain ⟨rfl, -⟩ := hs
    obtain ⟨T3, rfl, -, -, c3⟩ := converts_of_out pp firstAbs L _ m gs bs hlab2 (by rw [hid]; exact hn) hni2 hla2 b
    refine ⟨T1, T3, c1, ?_, c3⟩
    obtain ⟨s1, L1, k1, s2, L2, ks2, e1, e2, e3⟩ := list_cons _ _ _ _ _ _ _ _ d
    rw [TransposeDoc.list] at e2
    cases e2
    cases e3
    rw [TransposeDoc.editRange, e1]

/-- `{ c' \relative c' { c <e g> \octaveCheck c' } }`, or with other names. -/
def exDoc (c e g : Str) : Doc := .node 0 .other [.node 1 (.note true ⟨c, 1⟩ none) [], .node 2 .relative [.node 3 (.note true ⟨c, 1⟩ none) [],
  .node 4 .other [.node 5 (.note true ⟨c, 0⟩ none) [], .node 6 .chord [.node 7 .other [.node 8 (.note true ⟨e, 0⟩ none) [], .node 9 (.note true ⟨g, 0⟩ none) []]],
    .node 10 .check [.node 11 (.note true ⟨c, 1⟩ none) []]]]]

/-- `{ c' { c' <e' g'> } }`, or with other names. -/
def exAbs (c e g : Str) : Doc := .node 0 .other [.node 1 (.note true ⟨c, 1⟩ none) [], .node 4 .other [.node 5 (.note true ⟨c, 1⟩ none) [],
  .node 6 .chord [.node 7 .other [.node 8 (.note true ⟨e, 1⟩ none) [], .node 9 (.note true ⟨g, 1⟩ none) []]]]]

/-- The hypotheses hold for `{ c' \relative c' { c <e g> \octaveCheck c' } }`, a tone up. -/
example : ∃ tr, Runs (Transposer.make ⟨-1, 0, 0⟩ ⟨-1, 1, 0⟩ majorScale) tr ∧
    TransposeDoc.editRange ⟨exPP, tr, 0, true⟩ (fun _ => true) [] (exDoc ['c'] ['e'] ['g']) = .ok (exDoc ['d'] ['f', 'i', 's'] ['a']) ∧
    (ids (exDoc ['c'] ['e'] ['g'])).Nodup ∧ Nice (exDoc ['c'] ['e'] ['g']) ∧ Tidy false (exDoc ['c'] ['e'] ['g']) ∧
    OneLang [] (exDoc ['c'] ['e'] ['g']) ∧ Apt false (exDoc ['c'] ['e'] ['g']) := by
  obtain ⟨tr, ht⟩ := runs_exists (Transposer.make ⟨-1, 0, 0⟩ ⟨-1, 1, 0⟩ majorScale) majorScale rfl
  have c1 : tr ⟨0, 0, 0⟩ = ⟨0, 1, 0⟩ := C22_deterministic _ _ _ _ (ht _) ⟨3, by decide +kernel⟩
  have c2 : tr ⟨0, 2, 0⟩ = ⟨0, 3, 1/2⟩ := C22_deterministic _ _ _ _ (ht _) ⟨3, by decide +kernel⟩
  have c3 : tr ⟨0, 4, 0⟩ = ⟨0, 5, 0⟩ := C22_deterministic _ _ _ _ (ht _) ⟨3, by decide +kernel⟩
  have r0 : (exPP []).readNode ⟨['c'], 0⟩ = .ok ⟨-1, 0, 0⟩ := by decide +kernel
  have r1 : (exPP []).readNode ⟨['c'], 1⟩ = .ok ⟨0, 0, 0⟩ := by decide +kernel
  have r2 : (exPP []).readNode ⟨['e'], 0⟩ = .ok ⟨-1, 2, 0⟩ := by decide +kernel
  have r3 : (exPP []).readNode ⟨['g'], 0⟩ = .ok ⟨-1, 4, 0⟩ := by decide +kernel
  have w0 : (exPP []).writeNode ⟨['c'], 1⟩ ⟨0, 1, 0⟩ = .ok ⟨['d'], 1⟩ := by decide +kernel
  have w1 : (exPP []).writeNode ⟨['c'], 0⟩ ⟨-1, 1, 0⟩ = .ok ⟨['d'], 0⟩ := by decide +kernel
  have w2 : (exPP []).writeNode ⟨['e'], 0⟩ ⟨-1, 3, 1/2⟩ = .ok ⟨['f', 'i', 's'], 0⟩ := by decide +kernel
  have w3 : (exPP []).writeNode ⟨['g'], 0⟩ ⟨-1, 5, 0⟩ = .ok ⟨['a'], 0⟩ := by decide +kernel
  refine ⟨tr, ht, ?_, by decide, ?_, by simp [exDoc, Tidy, TidyL], by simp [exDoc, OneLang, OneLangL], by simp [exDoc, Apt, AptL]⟩
  · simp [TransposeDoc.editRange, TransposeDoc.visit, TransposeDoc.skip, TransposeDoc.first, TransposeDoc.list, TransposeDoc.consume, transposeAbs, Processor.process,
      transposeStart, transposeNote, transposeCheck, exDoc, TransposeDoc.setNote, down, Doc.lab, Pitch.makeAbsolute, Pitch.makeRelative, Last.prev,
      TransposeDoc.relLast, -one_div, c1, c2, c3, r0, r1, r2, r3, w0, w1, w2, w3]
  · have h2 : ∀ ks : List Doc, NoRelL ks → LastChecksL ks → (∃ s b, real ks = [s, b] ∧ s.lab.isPitch = true ∧ b.lab ≠ .check) → RelOk ks :=
      fun ks a b d => ⟨a, b, .inr d⟩
    simp only [exDoc, Nice, NiceL, and_true]
    refine ⟨by simp [Rel2abs.Spec.Lab.closed], by simp [firsts, Rel2abs.Spec.Lab.args, NoRelL],
      ⟨by simp [Rel2abs.Spec.Lab.closed], by simp [firsts, Rel2abs.Spec.Lab.args, NoRelL]⟩, ?_⟩
    refine h2 _ ?_ ?_ ⟨_, _, rfl, rfl, by simp [Doc.lab]⟩
    · simp [NoRelL, NoRel]
    · simp [LastChecksL, LastChecks, Doc.lab]

/-- The two documents converted: `{ c' { c' <e' g'> } }` and `{ d' { d' <fis' a'> } }`. -/
example : result {} (exDoc ['c'] ['e'] ['g']) = some (.ok (exAbs ['c'] ['e'] ['g'])) ∧
    result {} (exDoc ['d'] ['f', 'i', 's'] ['a']) = some (.ok (exAbs ['d'] ['f', 'i', 's'] ['a'])) := by
  constructor <;> with_unfolding_all rfl

/-! ## Where the order matters -/

/-- C108 fails for a note with an octave check in `\relative`: `{ \relative { c'=' } }`, an octave up, becomes `{ { c''='' } }` if it is transposed first, and
`{ { c''=' } }` if it is converted first. -/
theorem C108_octave_check : ∃ tr, Runs exOct tr ∧
    TransposeDoc.editRange ⟨exPP, tr, 1, true⟩ (fun _ => true) [] (.node 0 .other [.node 1 .relative [.node 2 .other [.node 3 (.note true ⟨['c'], 1⟩ (some 1)) []]]]) =
      .ok (.node 0 .other [.node 1 .relative [.node 2 .other [.node 3 (.note true ⟨['c'], 2⟩ (some 2)) []]]]) ∧
    result {} (.node 0 .other [.node 1 .relative [.node 2 .other [.node 3 (.note true ⟨['c'], 2⟩ (some 2)) []]]]) =
      some (.ok (.node 0 .other [.node 2 .other [.node 3 (.note true ⟨['c'], 2⟩ (some 2)) []]])) ∧
    result {} (.node 0 .other [.node 1 .relative [.node 2 .other [.node 3 (.note true ⟨['c'], 1⟩ (some 1)) []]]]) =
      some (.ok (.node 0 .other [.node 2 .other [.node 3 (.note true ⟨['c'], 1⟩ (some 1)) []]])) ∧
    TransposeDoc.editRange ⟨exPP, tr, 1, true⟩ (fun _ => true) [] (.node 0 .other [.node 2 .other [.node 3 (.note true ⟨['c'], 1⟩ (some 1)) []]]) =
      .ok (.node 0 .other [.node 2 .other [.node 3 (.note true ⟨['c'], 2⟩ (some 1)) []]]) := by
  obtain ⟨tr, ht⟩ := runs_exists exOct majorScale rfl
  have c1 : tr ⟨0, 0, 0⟩ = ⟨1, 0, 0⟩ := C22_deterministic _ _ _ _ (ht _) ⟨3, by decide +kernel⟩
  have r1 : (exPP []).readNode ⟨['c'], 1⟩ = .ok ⟨0, 0, 0⟩ := by decide +kernel
  have w1 : (exPP []).writeNode ⟨['c'], 1⟩ ⟨1, 0, 0⟩ = .ok ⟨['c'], 2⟩ := by decide +kernel
  refine ⟨tr, ht, ?_, by with_unfolding_all rfl, by with_unfolding_all rfl, ?_⟩ <;>
    simp [TransposeDoc.editRange, TransposeDoc.visit, TransposeDoc.skip, TransposeDoc.first, TransposeDoc.list, TransposeDoc.consume, transposeAbs, Processor.process,
      transposeNote, TransposeDoc.setNote, down, Doc.lab, Pitch.makeAbsolute, Pitch.makeRelative, Last.prev, firstPitch, c1, r1, w1]

/-- C108 fails for a `\transpose` in `\relative`: `{ \relative c' { c \transpose c c { c' } } }`, an octave up, becomes `{ { c'' \transpose c c { c' } } }` if it is
transposed first, and `{ { c'' \transpose c c { c'' } } }` if it is converted first. -/
theorem C108_transpose_in_relative : ∃ tr, Runs exOct tr ∧
    TransposeDoc.editRange ⟨exPP, tr, 1, true⟩ (fun _ => true) [] (.node 0 .other [.node 1 .relative [tn 2 'c' 1, .node 3 .other [tn 4 'c' 0,
        .node 5 (.skip .transpose) [tn 6 'c' 0, tn 7 'c' 0, .node 8 .other [tn 9 'c' 1]]]]]) =
      .ok (.node 0 .other [.node 1 .relative [tn 2 'c' 2, .node 3 .other [tn 4 'c' 0,
        .node 5 (.skip .transpose) [tn 6 'c' 0, tn 7 'c' 0, .node 8 .other [tn 9 'c' 1]]]]]) ∧
    result {} (.node 0 .other [.node 1 .relative [tn 2 'c' 2, .node 3 .other [tn 4 'c' 0,
        .node 5 (.skip .transpose) [tn 6 'c' 0, tn 7 'c' 0, .node 8 .other [tn 9 'c' 1]]]]]) =
      some (.ok (.node 0 .other [.node 3 .other [tn 4 'c' 2, .node 5 (.skip .transpose) [tn 6 'c' 0, tn 7 'c' 0, .node 8 .other [tn 9 'c' 1]]]])) ∧
    result {} (.node 0 .other [.node 1 .relative [tn 2 'c' 1, .node 3 .other [tn 4 'c' 0,
        .node 5 (.skip .transpose) [tn 6 'c' 0, tn 7 'c' 0, .node 8 .other [tn 9 'c' 1]]]]]) =
      some (.ok (.node 0 .other [.node 3 .other [tn 4 'c' 1, .node 5 (.skip .transpose) [tn 6 'c' 0, tn 7 'c' 0, .node 8 .other [tn 9 'c' 1]]]])) ∧
    TransposeDoc.editRange ⟨exPP, tr, 1, true⟩ (fun _ => true) []
        (.node 0 .other [.node 3 .other [tn 4 'c' 1, .node 5 (.skip .transpose) [tn 6 'c' 0, tn 7 'c' 0, .node 8 .other [tn 9 'c' 1]]]]) =
      .ok (.node 0 .other [.node 3 .other [tn 4 'c' 2, .node 5 (.skip .transpose) [tn 6 'c' 0, tn 7 'c' 0, .node 8 .other [tn 9 'c' 2]]]]) := by
  obtain ⟨tr, ht⟩ := runs_exists exOct majorScale rfl
  have c1 : tr ⟨0, 0, 0⟩ = ⟨1, 0, 0⟩ := C22_deterministic _ _ _ _ (ht _) ⟨3, by decide +kernel⟩
  have c0 : tr ⟨-1, 0, 0⟩ = ⟨0, 0, 0⟩ := C22_deterministic _ _ _ _ (ht _) ⟨3, by decide +kernel⟩
  have r0 : (exPP []).readNode ⟨['c'], 0⟩ = .ok ⟨-1, 0, 0⟩ := by decide +kernel
  have r1 : (exPP []).readNode ⟨['c'], 1⟩ = .ok ⟨0, 0, 0⟩ := by decide +kernel
  have w0 : (exPP []).writeNode ⟨['c'], 0⟩ ⟨-1, 0, 0⟩ = .ok ⟨['c'], 0⟩ := by decide +kernel
  have w1 : (exPP []).writeNode ⟨['c'], 1⟩ ⟨1, 0, 0⟩ = .ok ⟨['c'], 2⟩ := by decide +kernel
  have w2 : (exPP []).writeNode ⟨['c'], 1⟩ ⟨0, 0, 0⟩ = .ok ⟨['c'], 1⟩ := by decide +kernel
  refine ⟨tr, ht, ?_, by with_unfolding_all rfl, by with_unfolding_all rfl, ?_⟩ <;>
    simp [TransposeDoc.editRange, TransposeDoc.visit, TransposeDoc.skip, TransposeDoc.first, TransposeDoc.list, TransposeDoc.consume, transposeAbs, Processor.process,
      transposeStart, transposeNote, TransposeDoc.setNote, tn, down, Doc.lab, Pitch.makeAbsolute, Pitch.makeRelative, Last.prev, c0, c1, r0, r1, w0, w1, w2]

/-- C108 fails for a `\relative` in `\fixed`: `{ \fixed c' { \relative { c' } } }`, an octave up, becomes `{ \fixed c'' { { c'' } } }` if it is transposed first, and
`{ \fixed c'' { { c' } } }` if it is converted first. -/
theorem C108_relative_in_fixed : ∃ tr, Runs exOct tr ∧
    TransposeDoc.editRange ⟨exPP, tr, 1, true⟩ (fun _ => true) []
        (.node 0 .other [.node 1 (.skip .fixed) [tn 2 'c' 1, .node 3 .other [.node 4 .relative [.node 5 .other [tn 6 'c' 1]]]]]) =
      .ok (.node 0 .other [.node 1 (.skip .fixed) [tn 2 'c' 2, .node 3 .other [.node 4 .relative [.node 5 .other [tn 6 'c' 2]]]]]) ∧
    result {} (.node 0 .other [.node 1 (.skip .fixed) [tn 2 'c' 2, .node 3 .other [.node 4 .relative [.node 5 .other [tn 6 'c' 2]]]]]) =
      some (.ok (.node 0 .other [.node 1 (.skip .fixed) [tn 2 'c' 2, .node 3 .other [.node 5 .other [tn 6 'c' 2]]]])) ∧
    result {} (.node 0 .other [.node 1 (.skip .fixed) [tn 2 'c' 1, .node 3 .other [.node 4 .relative [.node 5 .other [tn 6 'c' 1]]]]]) =
      some (.ok (.node 0 .other [.node 1 (.skip .fixed) [tn 2 'c' 1, .node 3 .other [.node 5 .other [tn 6 'c' 1]]]])) ∧
    TransposeDoc.editRange ⟨exPP, tr, 1, true⟩ (fun _ => true) []
        (.node 0 .other [.node 1 (.skip .fixed) [tn 2 'c' 1, .node 3 .other [.node 5 .other [tn 6 'c' 1]]]]) =
      .ok (.node 0 .other [.node 1 (.skip .fixed) [tn 2 'c' 2, .node 3 .other [.node 5 .other [tn 6 'c' 1]]]]) := by
  obtain ⟨tr, ht⟩ := runs_exists exOct majorScale rfl
  have c1 : tr ⟨0, 0, 0⟩ = ⟨1, 0, 0⟩ := C22_deterministic _ _ _ _ (ht _) ⟨3, by decide +kernel⟩
  have r1 : (exPP []).readNode ⟨['c'], 1⟩ = .ok ⟨0, 0, 0⟩ := by decide +kernel
  have w1 : (exPP []).writeNode ⟨['c'], 1⟩ ⟨1, 0, 0⟩ = .ok ⟨['c'], 2⟩ := by decide +kernel
  have w2 : (exPP []).writeNode ⟨['c'], 1⟩ ⟨0, 0, 0⟩ = .ok ⟨['c'], 1⟩ := by decide +kernel
  refine ⟨tr, ht, ?_, by with_unfolding_all rfl, by with_unfolding_all rfl, ?_⟩ <;>
    simp [TransposeDoc.editRange, TransposeDoc.visit, TransposeDoc.skip, TransposeDoc.first, TransposeDoc.list, TransposeDoc.consume, transposeAbs, Processor.process,
      transposeNote, TransposeDoc.setNote, tn, down, Doc.lab, Pitch.makeAbsolute, Pitch.makeRelative, Last.prev, firstPitch, c1, r1, w1, w2]

/-- C108 fails for a selection: with just the first note of `{ \relative { c' c } }` selected, an octave up, it becomes `{ { c'' c'' } }` if it is transposed first,
and `{ { c'' c' } }` if it is converted first. -/
theorem C108_selection : ∃ tr, Runs exOct tr ∧
    TransposeDoc.editRange ⟨exPP, tr, 1, true⟩ (· == 3) [] (.node 0 .other [.node 1 .relative [.node 2 .other [tn 3 'c' 1, tn 4 'c' 0]]]) =
      .ok (.node 0 .other [.node 1 .relative [.node 2 .other [tn 3 'c' 2, tn 4 'c' 0]]]) ∧
    result {} (.node 0 .other [.node 1 .relative [.node 2 .other [tn 3 'c' 2, tn 4 'c' 0]]]) =
      some (.ok (.node 0 .other [.node 2 .other [tn 3 'c' 2, tn 4 'c' 2]])) ∧
    result {} (.node 0 .other [.node 1 .relative [.node 2 .other [tn 3 'c' 1, tn 4 'c' 0]]]) =
      some (.ok (.node 0 .other [.node 2 .other [tn 3 'c' 1, tn 4 'c' 1]])) ∧
    TransposeDoc.editRange ⟨exPP, tr, 1, true⟩ (· == 3) [] (.node 0 .other [.node 2 .other [tn 3 'c' 1, tn 4 'c' 1]]) =
      .ok (.node 0 .other [.node 2 .other [tn 3 'c' 2, tn 4 'c' 1]]) := by
  obtain ⟨tr, ht⟩ := runs_exists exOct majorScale rfl
  have c1 : tr ⟨0, 0, 0⟩ = ⟨1, 0, 0⟩ := C22_deterministic _ _ _ _ (ht _) ⟨3, by decide +kernel⟩
  have r0 : (exPP []).readNode ⟨['c'], 0⟩ = .ok ⟨-1, 0, 0⟩ := by decide +kernel
  have r1 : (exPP []).readNode ⟨['c'], 1⟩ = .ok ⟨0, 0, 0⟩ := by decide +kernel
  have w1 : (exPP []).writeNode ⟨['c'], 1⟩ ⟨1, 0, 0⟩ = .ok ⟨['c'], 2⟩ := by decide +kernel
  refine ⟨tr, ht, ?_, by with_unfolding_all rfl, by with_unfolding_all rfl, ?_⟩ <;>
    simp [TransposeDoc.editRange, TransposeDoc.visit, TransposeDoc.skip, TransposeDoc.first, TransposeDoc.list, TransposeDoc.consume, transposeAbs, Processor.process,
      transposeNote, TransposeDoc.setNote, tn, down, Doc.lab, Pitch.makeAbsolute, Pitch.makeRelative, Last.prev, firstPitch, c1, r0, r1, w1]

end Quickly.TransposeAbs
