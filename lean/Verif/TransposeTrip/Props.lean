import Verif.TransposeTrip.Lemmas
import Verif.TransposeAbs.Props
import Verif.RoundTrip.Props

/-! # Property C109: transposing music that was made relative -/

namespace Quickly.TransposeTrip

open Quickly.Pitch Quickly.Relative Quickly.Transpose
open Quickly.TransposeTrip.Spec (Meet MeetL)
open Quickly.RoundTrip (erase_node erase_mk editL_back nice_mk firsts_zero back)
open Quickly.RoundTrip.Spec (erase eraseL Ready ReadyL)
open Quickly.Abs2rel.Spec (toDoc toDocs)
open Quickly.TransposeAbs (Converts converts_of_out out_conv same_ids same_oneLang same_nice same_lab)
open Quickly.TransposeAbs.Spec (Apt AptL)
open Quickly.TransposeDoc (visit visit_same list_cons)
open Quickly.Rel2abs (Doc Lab Id Heap out outL)
open Quickly.Rel2abs.Spec (NoRel NoRelL Nice NiceL OneLang OneLangL Tidy TidyL ids)
open Quickly.Pitch.Spec (IsDict)
open Quickly.Relative.Spec (OneOctave Runs)

/-- C109: a document is converted to relative music (`T` is the converted document in memory), transposed (`T2`), and converted to absolute music again.  This gives the
document that one gets by just transposing it, to the last octave mark; and that works too.

Missing: the music that is converted has no chords (`C105_chord`), no `\octaveCheck`, no `\transpose` (`C108_transpose_in_relative`) and no notes with an octave check
(`C108_octave_check`); and there is one pitch language. -/
theorem C109_relative_and_back_partial (pp : Langs) (hd : ∀ l, IsDict (pp l).table) (h1 : ∀ l, OneOctave (pp l).table) (t : Transposer) (tr : Pitch → Pitch) (ht : Runs t tr)
    (st : Settings) (L : Str) (l : Abs2rel.Lab) (ks : List Abs2rel.Doc) (d' : Abs2rel.Doc) (T T2 : Doc)
    (hl : l = .list ∨ l = .lab .other) (hy : ReadyL ks) (hm : MeetL ks) (hr : NoRel (toDoc (.node l ks))) (ho : OneLang L (toDoc (.node l ks)))
    (hti : Tidy false (toDoc (.node l ks))) (he : Abs2rel.editRange pp st {} L (.node l ks) = .ok d') (hT : erase T = toDoc d') (hn : (ids T).Nodup)
    (h2 : TransposeDoc.editRange ⟨pp, tr, t.octave, st.firstAbs⟩ (fun _ => true) L T = .ok T2) :
    ∃ T3, Converts pp st.firstAbs L T.id T2 T3 ∧
      TransposeDoc.editRange ⟨pp, tr, t.octave, st.firstAbs⟩ (fun _ => true) L (toDoc (.node l ks)) = .ok (erase T3) := by
  have hp : Abs2rel.Spec.Lab.plain l = .other := by rcases hl with rfl | rfl <;> rfl
  rw [toDoc, NoRel] at hr
  rw [toDoc, OneLang] at ho
  have hti : TidyL false (toDocs ks) := by rw [toDoc, hp] at hti; simpa only [Tidy] using hti
  rw [Abs2rel.editRange] at he
  split at he
  · cases he
  · rename_i L1 ks1 e1
    cases he
    obtain ⟨-, b⟩ := editL_back pp hd st L ks ks1 L1 ks.length 0 e1 (by omega) hy hr.2 ho.2
    obtain ⟨k1, k2⟩ := editL_kind pp st ks ks1 L L1 ks.length 0 false e1 (by omega) hm hr.2 hti
    obtain ⟨i, ts, rfl, h3⟩ := erase_node hT
    obtain ⟨b1, b2, ⟨ts', b3, b4⟩, -, -⟩ := b ts h3
    rw [← h3] at k1 k2
    have k1 := (aptL_erase ts false).1 k1
    have k2 := (tidyL_erase ts false).1 k2
    have hni : Nice (.node i (Abs2rel.Spec.Lab.plain l) ts) :=
      nice_mk hr.1 (by rw [hp]; intro x; cases x) (by rw [hp]; exact firsts_zero _) b1
    have hla : OneLang L (.node i (Abs2rel.Spec.Lab.plain l) ts) := by rw [OneLang]; exact ⟨ho.1, b2⟩
    have hap : Apt false (.node i (Abs2rel.Spec.Lab.plain l) ts) := by rw [hp]; simpa only [Apt] using k1
    have htt : Tidy false (.node i (Abs2rel.Spec.Lab.plain l) ts) := by rw [hp]; simpa only [Tidy] using k2
    have g : Relative.Good ⟨pp, tr, t.octave, st.firstAbs⟩ := ⟨hd, h1, runs_down t tr ht⟩
    unfold TransposeDoc.editRange at h2
    split at h2
    · cases h2
    · rename_i s' L' T2' e
      cases h2
      obtain ⟨as, bs, a, b, d⟩ := out_conv g _ _ _ _ _ hni htt hap hla e
      have ha : as = [.node i (Abs2rel.Spec.Lab.plain l) ts'] := by
        rw [out, if_neg hr.1] at a
        have b3' : outL (TransposeAbs.cfg ⟨pp, tr, t.octave, st.firstAbs⟩) L ts = .ok ts' := b3
        rw [b3'] at a
        cases a
        rfl
      subst ha
      have hs := visit_same _ _ _ _ _ _ _ _ _ e
      have hid := same_ids _ _ _ hs
      have hla2 := same_oneLang _ L _ _ hs hla
      have hni2 := same_nice _ _ _ hs hni
      obtain ⟨j, m, gs⟩ := T2
      have hlab2 : m ≠ .relative := fun x => hr.1 ((same_lab hs .relative (by simp)).2 x)
      rw [TransposeDoc.Spec.Same] at hs
      obtain ⟨rfl, -⟩ := hs
      obtain ⟨T3, rfl, -, -, c3⟩ := converts_of_out pp st.firstAbs L _ m gs bs hlab2 (by rw [hid]; exact hn) hni2 hla2 b
      refine ⟨T3, c3, ?_⟩
      obtain ⟨s1, L1, k1, s2, L2, ks2, e1, e2, e3⟩ := list_cons _ _ _ _ _ _ _ _ d
      rw [TransposeDoc.list] at e2
      cases e2
      cases e3
      have e4 := visit_erase _ _ _ _ _ _ _ _ e1
      rw [erase_mk rfl b4] at e4
      rw [TransposeDoc.editRange]
      erw [e4]

/-! ## Examples -/

open Quickly.RoundTrip (an)
open Quickly.Rel2abs (tn result)

/-- `{ c' { g' } b }`. -/
def exDoc : List Abs2rel.Doc := [.node .list [an 'c' 1, .node .list [an 'g' 1], an 'b' 0]]

/-- `\relative c' { c { g' } b, }`, or with other names. -/
def exRel (c g b : Str) (o : ℤ) : Doc := .node 0 .other [.node 1 .relative [.node 2 (.note true ⟨c, 1⟩ none) [],
  .node 3 .other [.node 4 (.note true ⟨c, 0⟩ none) [], .node 5 .other [.node 6 (.note true ⟨g, 1⟩ none) []], .node 7 (.note true ⟨b, o⟩ none) []]]]

/-- The hypotheses hold for `{ c' { g' } b }`, a tone up. -/
example : ∃ tr d', Runs (Transposer.make ⟨-1, 0, 0⟩ ⟨-1, 1, 0⟩ majorScale) tr ∧ ReadyL exDoc ∧ MeetL exDoc ∧ NoRel (toDoc (.node (.lab .other) exDoc)) ∧
    OneLang [] (toDoc (.node (.lab .other) exDoc)) ∧ Tidy false (toDoc (.node (.lab .other) exDoc)) ∧
    Abs2rel.editRange exPP ⟨true, true⟩ {} [] (.node (.lab .other) exDoc) = .ok d' ∧ erase (exRel ['c'] ['g'] ['b'] (-1)) = toDoc d' ∧
    (ids (exRel ['c'] ['g'] ['b'] (-1))).Nodup ∧
    TransposeDoc.editRange ⟨exPP, tr, 0, true⟩ (fun _ => true) [] (exRel ['c'] ['g'] ['b'] (-1)) = .ok (exRel ['d'] ['a'] ['c', 'i', 's'] (-1)) := by
  obtain ⟨tr, ht⟩ := runs_exists (Transposer.make ⟨-1, 0, 0⟩ ⟨-1, 1, 0⟩ majorScale) majorScale rfl
  have c1 : tr ⟨0, 0, 0⟩ = ⟨0, 1, 0⟩ := C22_deterministic _ _ _ _ (ht _) ⟨3, by decide +kernel⟩
  have c2 : tr ⟨0, 4, 0⟩ = ⟨0, 5, 0⟩ := C22_deterministic _ _ _ _ (ht _) ⟨3, by decide +kernel⟩
  have c3 : tr ⟨-1, 6, 0⟩ = ⟨0, 0, 1/2⟩ := C22_deterministic _ _ _ _ (ht _) ⟨3, by decide +kernel⟩
  have r0 : (exPP []).readNode ⟨['c'], 0⟩ = .ok ⟨-1, 0, 0⟩ := by decide +kernel
  have r1 : (exPP []).readNode ⟨['c'], 1⟩ = .ok ⟨0, 0, 0⟩ := by decide +kernel
  have r2 : (exPP []).readNode ⟨['g'], 1⟩ = .ok ⟨0, 4, 0⟩ := by decide +kernel
  have r3 : (exPP []).readNode ⟨['b'], -1⟩ = .ok ⟨-2, 6, 0⟩ := by decide +kernel
  have w0 : (exPP []).writeNode ⟨['c'], 1⟩ ⟨0, 1, 0⟩ = .ok ⟨['d'], 1⟩ := by decide +kernel
  have w1 : (exPP []).writeNode ⟨['c'], 0⟩ ⟨-1, 1, 0⟩ = .ok ⟨['d'], 0⟩ := by decide +kernel
  have w2 : (exPP []).writeNode ⟨['g'], 1⟩ ⟨0, 5, 0⟩ = .ok ⟨['a'], 1⟩ := by decide +kernel
  have w3 : (exPP []).writeNode ⟨['b'], -1⟩ ⟨-2, 0, 1/2⟩ = .ok ⟨['c', 'i', 's'], -1⟩ := by decide +kernel
  refine ⟨tr, _, ht, ?_, ?_, ?_, ?_, ?_, by with_unfolding_all rfl, by with_unfolding_all rfl, by decide, ?_⟩
  · simp [exDoc, ReadyL, Ready, RoundTrip.Spec.SimpleL, RoundTrip.Spec.Simple, RoundTrip.Spec.NoCheckL, an, Abs2rel.Doc.isNote, Abs2rel.Doc.lab]
  · simp [exDoc, MeetL, Meet, toDoc, toDocs, AptL, Apt, an, Abs2rel.Spec.Lab.plain, Abs2rel.Doc.isNote, Abs2rel.Doc.lab]
  · simp [exDoc, toDoc, toDocs, NoRel, NoRelL, an, Abs2rel.Spec.Lab.plain]
  · simp [exDoc, toDoc, toDocs, OneLang, OneLangL, an, Abs2rel.Spec.Lab.plain]
  · simp [exDoc, toDoc, toDocs, Tidy, TidyL, an, Abs2rel.Spec.Lab.plain]
  · simp [TransposeDoc.editRange, TransposeDoc.visit, TransposeDoc.skip, TransposeDoc.first, TransposeDoc.list, TransposeDoc.consume, Processor.process,
      transposeStart, transposeNote, exRel, TransposeDoc.setNote, down, Doc.lab, Pitch.makeAbsolute, Pitch.makeRelative, Last.prev,
      -one_div, c1, c2, c3, r0, r1, r2, r3, w0, w1, w2, w3]

/-- What comes back: `{ d' { a' } cis' }`. -/
example : result {} (exRel ['d'] ['a'] ['c', 'i', 's'] (-1)) = some (.ok (.node 0 .other [.node 3 .other [.node 4 (.note true ⟨['d'], 1⟩ none) [],
    .node 5 .other [.node 6 (.note true ⟨['a'], 1⟩ none) []], .node 7 (.note true ⟨['c', 'i', 's'], 1⟩ none) []]])) := by
  with_unfolding_all rfl

/-- `{ c'=' }` in a document. -/
def exCheck : Abs2rel.Doc := .node (.lab .other) [.node .list [.node (.lab (.note true ⟨['c'], 1⟩ (some 1))) []]]

/-- `\relative { c'=' }`, or in another octave. -/
def exCheckRel (o : ℤ) : Doc := .node 0 .other [.node 1 .relative [.node 3 .other [.node 4 (.note true ⟨['c'], o⟩ (some o)) []]]]

/-- C109 fails for a note with an octave check: `{ c'=' }`, an octave up, becomes `{ c''='' }` if it is made relative for that (without a start pitch), and `{ c''=' }` otherwise. -/
theorem C109_octave_check : ∃ tr d', Runs exOct tr ∧ Abs2rel.editRange exPP ⟨false, true⟩ {} [] exCheck = .ok d' ∧ erase (exCheckRel 1) = toDoc d' ∧
    TransposeDoc.editRange ⟨exPP, tr, 1, true⟩ (fun _ => true) [] (exCheckRel 1) = .ok (exCheckRel 2) ∧
    result {} (exCheckRel 2) = some (.ok (.node 0 .other [.node 3 .other [.node 4 (.note true ⟨['c'], 2⟩ (some 2)) []]])) ∧
    TransposeDoc.editRange ⟨exPP, tr, 1, true⟩ (fun _ => true) [] (toDoc exCheck) =
      .ok (.node 0 .other [.node 0 .other [.node 0 (.note true ⟨['c'], 2⟩ (some 1)) []]]) := by
  obtain ⟨tr, ht⟩ := runs_exists exOct majorScale rfl
  have c1 : tr ⟨0, 0, 0⟩ = ⟨1, 0, 0⟩ := C22_deterministic _ _ _ _ (ht _) ⟨3, by decide +kernel⟩
  have r1 : (exPP []).readNode ⟨['c'], 1⟩ = .ok ⟨0, 0, 0⟩ := by decide +kernel
  have w1 : (exPP []).writeNode ⟨['c'], 1⟩ ⟨1, 0, 0⟩ = .ok ⟨['c'], 2⟩ := by decide +kernel
  refine ⟨tr, _, ht, by with_unfolding_all rfl, by with_unfolding_all rfl, ?_, by with_unfolding_all rfl, ?_⟩ <;>
    simp [TransposeDoc.editRange, TransposeDoc.visit, TransposeDoc.skip, TransposeDoc.first, TransposeDoc.list, TransposeDoc.consume, transposeAbs, Processor.process,
      transposeNote, exCheckRel, exCheck, toDoc, toDocs, Abs2rel.Spec.Lab.plain, firstPitch, TransposeDoc.setNote, down, Doc.lab, Pitch.makeAbsolute,
      Pitch.makeRelative, Last.prev, c1, r1, w1]

end Quickly.TransposeTrip
