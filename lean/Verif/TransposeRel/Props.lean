import Verif.TransposeRel.Lemmas
import Verif.TransposeDoc.Props
import Verif.RoundTrip.Props

/-! # Property C110: transposing and converting to relative music -/

namespace Quickly.TransposeRel

open Quickly.Pitch Quickly.Relative Quickly.Transpose
open Quickly.TransposeTrip (whole)
open Quickly.TransposeRel.Spec (Music MusicL Fair FairL Alike AlikeL)
open Quickly.Abs2rel (Doc)
open Quickly.Abs2rel.Spec (toDoc toDocs)
open Quickly.Rel2abs.Spec (OneLang OneLangL)
open Quickly.Pitch.Spec (IsDict)
open Quickly.Relative.Spec (OneOctave Runs)

/-- C110: if a document can be converted to relative music without start pitches (`d1`), and can be transposed (`d2`), then the transposed document can be converted and the
converted one can be transposed, and this gives the same document, with the same names and octaves. -/
theorem C110_either_order (pp : Langs) (hd : ∀ l, IsDict (pp l).table) (h1 : ∀ l, OneOctave (pp l).table) (t : Transposer) (tr : Pitch → Pitch) (ht : Runs t tr)
    (firstAbs : Bool) (L : Str) (l : Abs2rel.Lab) (ks : List Doc) (d1 d2 : Doc) (hl : l = .list ∨ l = .lab .other) (hf : FairL ks)
    (ho : OneLang L (toDoc (.node l ks))) (e1 : Abs2rel.editRange pp ⟨false, firstAbs⟩ {} L (.node l ks) = .ok d1)
    (e2 : TransposeDoc.editRange ⟨pp, tr, t.octave, firstAbs⟩ (fun _ => true) L (toDoc (.node l ks)) = .ok (toDoc d2)) (ha : Alike (.node l ks) d2) :
    ∃ d3, Abs2rel.editRange pp ⟨false, firstAbs⟩ {} L d2 = .ok d3 ∧
      TransposeDoc.editRange ⟨pp, tr, t.octave, firstAbs⟩ (fun _ => true) L (toDoc d1) = .ok (toDoc d3) := by
  have g : Good ⟨pp, tr, t.octave, firstAbs⟩ := ⟨hd, h1, runs_down t tr ht⟩
  have hp : Abs2rel.Spec.Lab.plain l = .other := by rcases hl with rfl | rfl <;> rfl
  unfold TransposeDoc.editRange at e2
  split at e2
  · cases e2
  · rename_i s L' T e
    cases e2
    have tw : Twin (.node l ks) d2 := ⟨ha, TransposeDoc.visit_same _ _ _ _ _ _ _ _ _ e⟩
    obtain ⟨l2, ks2, rfl, tk, tl⟩ := twin_node tw
    obtain rfl : l2 = l := by
      rcases tl with rfl | ⟨p, nd, chk, nd', chk', rfl, -⟩
      · rfl
      · simp at hl
    rw [Abs2rel.editRange] at e1
    split at e1
    · cases e1
    · rename_i L1 ks1 e3
      cases e1
      rw [toDoc, OneLang] at ho
      simp only [toDoc, hp] at e
      change TransposeDoc.visit _ whole _ _ _ _ = _ at e
      rw [visit_open _ _ _ _ _ (.inl (.inl rfl))] at e
      split at e
      · cases e
      · rename_i S L2 gs e4
        simp only [Except.ok.injEq, Prod.mk.injEq, Rel2abs.Doc.node.injEq, true_and] at e
        obtain ⟨-, rfl, rfl⟩ := e
        obtain rfl := TransposeAbs.list_pitches _ _ _ _ _ _ _ _ _ _ e4
        obtain rfl := TransposeAbs.list_lang _ _ _ _ _ _ _ _ _ _ ho.2 e4
        obtain ⟨-, ks3, x1, x2⟩ := editL_comm g _ ks ks1 ks2 ks.length 0 0 L1 hf (by simp) ho.2 tk (by omega) e3 e4
        refine ⟨.node l2 ks3, ?_, ?_⟩
        · rw [Abs2rel.editRange, twinL_length tk]
          change (match Abs2rel.editL pp (plainly ⟨pp, tr, t.octave, firstAbs⟩) {} ks.length 0 L2 ks2 with | .error e => _ | .ok (_, ks) => _) = _
          rw [x1]
        · unfold TransposeDoc.editRange
          simp only [toDoc, hp]
          change (match TransposeDoc.visit _ whole _ _ _ _ with | .error e => _ | .ok (_, _, root) => _) = _
          rw [visit_open _ _ _ _ _ (.inl (.inl rfl)), x2]

mutual
theorem alike_of_same (sel : Rel2abs.Id → Bool) : ∀ (d : Doc) (T : Rel2abs.Doc), TransposeDoc.Spec.Same sel (toDoc d) T → ∃ d2, toDoc d2 = T ∧ Alike d d2
  | .node l ks, .node j m gs, h => by
    rw [toDoc, TransposeDoc.Spec.Same] at h
    obtain ⟨rfl, h1, h2⟩ := h
    obtain ⟨ks2, rfl, a⟩ := alikeL_of_same sel ks gs h2
    cases l with
    | list =>
      have : m = .other := by
        rcases h1 with h1 | ⟨-, p, nd, chk, nd', chk', h1, -⟩
        · exact h1.symm
        · cases h1
      subst this
      exact ⟨.node .list ks2, by rw [toDoc]; rfl, by rw [Alike]; exact ⟨by simp, a⟩⟩
    | lab l => exact ⟨.node (.lab m) ks2, by rw [toDoc]; rfl, by rw [Alike]; exact ⟨by simp, a⟩⟩
theorem alikeL_of_same (sel : Rel2abs.Id → Bool) : ∀ (ks : List Doc) (gs : List Rel2abs.Doc), TransposeDoc.Spec.SameL sel (toDocs ks) gs → ∃ ks2, toDocs ks2 = gs ∧ AlikeL ks ks2
  | [], gs, h => by
    cases gs with
    | nil => exact ⟨[], by rw [toDocs], by rw [AlikeL]; trivial⟩
    | cons g gs => simp [toDocs, TransposeDoc.Spec.SameL] at h
  | k :: ks, gs, h => by
    cases gs with
    | nil => simp [toDocs, TransposeDoc.Spec.SameL] at h
    | cons g gs =>
      rw [toDocs, TransposeDoc.Spec.SameL] at h
      obtain ⟨k2, rfl, a⟩ := alike_of_same sel k g h.1
      obtain ⟨ks2, rfl, b⟩ := alikeL_of_same sel ks gs h.2
      exact ⟨k2 :: ks2, by rw [toDocs], by rw [AlikeL]; exact ⟨a, b⟩⟩
end

/-- C110: transposing does not change what is a music list: every transposed document is one that `C110_either_order` is about. -/
theorem C110_transposed (c : Ctx) (sel : Rel2abs.Id → Bool) (L : Str) (d : Doc) (T : Rel2abs.Doc) (h : TransposeDoc.editRange c sel L (toDoc d) = .ok T) :
    ∃ d2, toDoc d2 = T ∧ Alike d d2 := by
  unfold TransposeDoc.editRange at h
  split at h
  · cases h
  · rename_i e
    cases h
    exact alike_of_same sel d _ (TransposeDoc.visit_same _ _ _ _ _ _ _ _ _ e)

/-! ## Examples -/

/-- A note of the examples. -/
def nt (c : Str) (o : ℤ) : Doc := .node (.lab (.note true ⟨c, o⟩ none)) []

/-- `{ c' { g' } b }`, or with other names. -/
def exAbs (c g b : Str) (o : ℤ) : Doc := .node (.lab .other) [.node .list [nt c 1, .node .list [nt g 1], nt b o]]

/-- `\relative { c' { g' } b, }`, or with other names. -/
def exRel (c g b : Str) : Doc := .node (.lab .other) [.node (.lab .relative) [.node .list [nt c 1, .node .list [nt g 1], nt b (-1)]]]

/-- The hypotheses hold for `{ c' { g' } b }`, a tone up, which is `{ d' { a' } cis' }`; and what one gets is `\relative { d' { a' } cis, }`. -/
example : ∃ tr, Runs (Transposer.make ⟨-1, 0, 0⟩ ⟨-1, 1, 0⟩ majorScale) tr ∧ FairL (exAbs ['c'] ['g'] ['b'] 0).kids ∧ OneLang [] (toDoc (exAbs ['c'] ['g'] ['b'] 0)) ∧
    Abs2rel.editRange exPP ⟨false, true⟩ {} [] (exAbs ['c'] ['g'] ['b'] 0) = .ok (exRel ['c'] ['g'] ['b']) ∧
    TransposeDoc.editRange ⟨exPP, tr, 0, true⟩ (fun _ => true) [] (toDoc (exAbs ['c'] ['g'] ['b'] 0)) = .ok (toDoc (exAbs ['d'] ['a'] ['c', 'i', 's'] 1)) ∧
    Alike (exAbs ['c'] ['g'] ['b'] 0) (exAbs ['d'] ['a'] ['c', 'i', 's'] 1) ∧
    Abs2rel.editRange exPP ⟨false, true⟩ {} [] (exAbs ['d'] ['a'] ['c', 'i', 's'] 1) = .ok (exRel ['d'] ['a'] ['c', 'i', 's']) := by
  obtain ⟨tr, ht⟩ := runs_exists (Transposer.make ⟨-1, 0, 0⟩ ⟨-1, 1, 0⟩ majorScale) majorScale rfl
  have c1 : tr ⟨0, 0, 0⟩ = ⟨0, 1, 0⟩ := C22_deterministic _ _ _ _ (ht _) ⟨3, by decide +kernel⟩
  have c2 : tr ⟨0, 4, 0⟩ = ⟨0, 5, 0⟩ := C22_deterministic _ _ _ _ (ht _) ⟨3, by decide +kernel⟩
  have c3 : tr ⟨-1, 6, 0⟩ = ⟨0, 0, 1/2⟩ := C22_deterministic _ _ _ _ (ht _) ⟨3, by decide +kernel⟩
  have r1 : (exPP []).readNode ⟨['c'], 1⟩ = .ok ⟨0, 0, 0⟩ := by decide +kernel
  have r2 : (exPP []).readNode ⟨['g'], 1⟩ = .ok ⟨0, 4, 0⟩ := by decide +kernel
  have r3 : (exPP []).readNode ⟨['b'], 0⟩ = .ok ⟨-1, 6, 0⟩ := by decide +kernel
  have w1 : (exPP []).writeNode ⟨['c'], 1⟩ ⟨0, 1, 0⟩ = .ok ⟨['d'], 1⟩ := by decide +kernel
  have w2 : (exPP []).writeNode ⟨['g'], 1⟩ ⟨0, 5, 0⟩ = .ok ⟨['a'], 1⟩ := by decide +kernel
  have w3 : (exPP []).writeNode ⟨['b'], 0⟩ ⟨0, 0, 1/2⟩ = .ok ⟨['c', 'i', 's'], 1⟩ := by decide +kernel
  refine ⟨tr, ht, ?_, ?_, by with_unfolding_all rfl, ?_, ?_, by with_unfolding_all rfl⟩
  · simp [exAbs, nt, Doc.kids, FairL, Fair, MusicL, Music, Doc.isNote, Doc.lab]
  · simp [exAbs, nt, toDoc, toDocs, OneLang, OneLangL, Abs2rel.Spec.Lab.plain]
  · simp [TransposeDoc.editRange, TransposeDoc.visit, TransposeDoc.list, TransposeDoc.consume, transposeAbs, Processor.process, exAbs, nt, toDoc, toDocs,
      Abs2rel.Spec.Lab.plain, TransposeDoc.setNote, down, -one_div, c1, c2, c3, r1, r2, r3, w1, w2, w3]
  · simp [exAbs, nt, Alike, AlikeL]

/-! ## Where the order matters -/

/-- `\relative c'' { g }`, or with other names. -/
def exStart (c : Str) (o : ℤ) (g : Str) (p : ℤ) : Doc := .node (.lab .other) [.node (.lab .relative) [nt c o, .node .list [nt g p]]]

/-- C110 fails if a start pitch is written: `{ g' }`, a tone up, becomes `\relative d'' { a }` if it is converted first, and `\relative c'' { a }` if it is transposed
first. -/
theorem C110_start_pitch : ∃ tr, Runs (Transposer.make ⟨-1, 0, 0⟩ ⟨-1, 1, 0⟩ majorScale) tr ∧
    Abs2rel.editRange exPP ⟨true, true⟩ {} [] (.node (.lab .other) [.node .list [nt ['g'] 1]]) = .ok (exStart ['c'] 2 ['g'] 0) ∧
    TransposeDoc.editRange ⟨exPP, tr, 0, true⟩ (fun _ => true) [] (toDoc (exStart ['c'] 2 ['g'] 0)) = .ok (toDoc (exStart ['d'] 2 ['a'] 0)) ∧
    TransposeDoc.editRange ⟨exPP, tr, 0, true⟩ (fun _ => true) [] (toDoc (.node (.lab .other) [.node .list [nt ['g'] 1]])) =
      .ok (toDoc (.node (.lab .other) [.node .list [nt ['a'] 1]])) ∧
    Abs2rel.editRange exPP ⟨true, true⟩ {} [] (.node (.lab .other) [.node .list [nt ['a'] 1]]) = .ok (exStart ['c'] 2 ['a'] 0) := by
  obtain ⟨tr, ht⟩ := runs_exists (Transposer.make ⟨-1, 0, 0⟩ ⟨-1, 1, 0⟩ majorScale) majorScale rfl
  have c1 : tr ⟨1, 0, 0⟩ = ⟨1, 1, 0⟩ := C22_deterministic _ _ _ _ (ht _) ⟨3, by decide +kernel⟩
  have c2 : tr ⟨0, 4, 0⟩ = ⟨0, 5, 0⟩ := C22_deterministic _ _ _ _ (ht _) ⟨3, by decide +kernel⟩
  have r1 : (exPP []).readNode ⟨['c'], 2⟩ = .ok ⟨1, 0, 0⟩ := by decide +kernel
  have r2 : (exPP []).readNode ⟨['g'], 1⟩ = .ok ⟨0, 4, 0⟩ := by decide +kernel
  have r3 : (exPP []).readNode ⟨['g'], 0⟩ = .ok ⟨-1, 4, 0⟩ := by decide +kernel
  have w1 : (exPP []).writeNode ⟨['c'], 2⟩ ⟨1, 1, 0⟩ = .ok ⟨['d'], 2⟩ := by decide +kernel
  have w2 : (exPP []).writeNode ⟨['g'], 1⟩ ⟨0, 5, 0⟩ = .ok ⟨['a'], 1⟩ := by decide +kernel
  have w3 : (exPP []).writeNode ⟨['g'], 0⟩ ⟨-1, 5, 0⟩ = .ok ⟨['a'], 0⟩ := by decide +kernel
  refine ⟨tr, ht, by with_unfolding_all rfl, ?_, ?_, by with_unfolding_all rfl⟩ <;>
    simp [TransposeDoc.editRange, TransposeDoc.visit, TransposeDoc.skip, TransposeDoc.first, TransposeDoc.list, TransposeDoc.consume, transposeAbs, Processor.process,
      transposeStart, transposeNote, exStart, nt, toDoc, toDocs, Abs2rel.Spec.Lab.plain, TransposeDoc.setNote, down, Rel2abs.Doc.lab, Pitch.makeAbsolute,
      Pitch.makeRelative, Last.prev, c1, c2, r1, r2, r3, w1, w2, w3]

/-- `\relative { c' <c'> }`, or in other octaves. -/
def exChord (o p : ℤ) : Doc := .node (.lab .other) [.node (.lab .relative) [.node .list [nt ['c'] o, .node (.lab .chord) [.node (.lab .other) [nt ['c'] p]]]]]

/-- `{ c' <c'> }`, or in other octaves. -/
def exChordAbs (o p : ℤ) : Doc := .node (.lab .other) [.node .list [nt ['c'] o, .node (.lab .chord) [.node (.lab .other) [nt ['c'] p]]]]

/-- C110 fails for chords, which are left absolute: `{ c' <c'> }`, an octave up, becomes `\relative { c'' <c'> }` if it is converted first, and
`\relative { c'' <c''> }` if it is transposed first. -/
theorem C110_chord : ∃ tr, Runs exOct tr ∧
    Abs2rel.editRange exPP ⟨false, true⟩ {} [] (exChordAbs 1 1) = .ok (exChord 1 1) ∧
    TransposeDoc.editRange ⟨exPP, tr, 1, true⟩ (fun _ => true) [] (toDoc (exChord 1 1)) = .ok (toDoc (exChord 2 1)) ∧
    TransposeDoc.editRange ⟨exPP, tr, 1, true⟩ (fun _ => true) [] (toDoc (exChordAbs 1 1)) = .ok (toDoc (exChordAbs 2 2)) ∧
    Abs2rel.editRange exPP ⟨false, true⟩ {} [] (exChordAbs 2 2) = .ok (exChord 2 2) := by
  obtain ⟨tr, ht⟩ := runs_exists exOct majorScale rfl
  have c1 : tr ⟨0, 0, 0⟩ = ⟨1, 0, 0⟩ := C22_deterministic _ _ _ _ (ht _) ⟨3, by decide +kernel⟩
  have c2 : tr ⟨1, 0, 0⟩ = ⟨2, 0, 0⟩ := C22_deterministic _ _ _ _ (ht _) ⟨3, by decide +kernel⟩
  have r1 : (exPP []).readNode ⟨['c'], 1⟩ = .ok ⟨0, 0, 0⟩ := by decide +kernel
  have w1 : (exPP []).writeNode ⟨['c'], 1⟩ ⟨1, 0, 0⟩ = .ok ⟨['c'], 2⟩ := by decide +kernel
  have w2 : (exPP []).writeNode ⟨['c'], 1⟩ ⟨0, 0, 0⟩ = .ok ⟨['c'], 1⟩ := by decide +kernel
  refine ⟨tr, ht, by with_unfolding_all rfl, ?_, ?_, by with_unfolding_all rfl⟩ <;>
    simp [TransposeDoc.editRange, TransposeDoc.visit, TransposeDoc.skip, TransposeDoc.first, TransposeDoc.list, TransposeDoc.consume, TransposeDoc.relLast, transposeAbs,
      Processor.process, transposeNote, exChord, exChordAbs, nt, toDoc, toDocs, Abs2rel.Spec.Lab.plain, TransposeDoc.setNote, down, Rel2abs.Doc.lab, Pitch.makeAbsolute,
      Pitch.makeRelative, Last.prev, firstPitch, c1, c2, r1, w1, w2]

end Quickly.TransposeRel
