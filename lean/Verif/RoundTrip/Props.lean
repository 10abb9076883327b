import Verif.RoundTrip.Edit

/-! # C105: converting to relative music and back -/

namespace Quickly.RoundTrip

open Quickly.Pitch Quickly.Relative Quickly.Abs2rel Quickly.RoundTrip.Spec
open Quickly.Abs2rel.Spec (toDoc toDocs)
open Quickly.Rel2abs.Spec (NoRel OneLang Linked Shows ids store)
open Quickly.Rel2abs (Heap)
open Quickly.Pitch.Spec (IsDict)

/-- C105: a document that is converted with `abs2rel` and then with `rel2abs` is the document that it was, to the last octave mark; `T` is the converted document as it is
in memory.  Both conversions have the same idea of the first pitch (the version of the document).

Missing: there must be no `\relative` in the document before (that would be gone), one pitch language (`C25_two_languages`), and in the lists that are converted no chords, whose notes
`abs2rel` leaves as they are and `rel2abs` does not (`C105_chord`), and no `\octaveCheck`, which `rel2abs` removes. -/
theorem C105_back_partial (pp : Langs) (hd : ∀ l, IsDict (pp l).table) (st : Settings) (l : Abs2rel.Lab) (ks : List Doc) (d' : Doc) (h : Heap) (T : Rel2abs.Doc)
    (hl : l = .list ∨ l = .lab .other) (hy : ReadyL ks) (hr : NoRel (toDoc (.node l ks))) (ho : OneLang h.lang (toDoc (.node l ks)))
    (he : Abs2rel.editRange pp st {} h.lang (.node l ks) = .ok d')
    (hT : erase T = toDoc d') (hk : Linked h) (hs : Shows h T) (hn : (ids T).Nodup) :
    ∃ h' T', (∃ N, ∀ f ≥ N, Rel2abs.editRange ⟨pp, st.firstAbs⟩ {} f h T.id = some (.ok h')) ∧ Shows h' T' ∧ T'.id = T.id ∧ erase T' = toDoc (.node l ks) := by
  rw [toDoc, NoRel] at hr
  rw [toDoc, OneLang] at ho
  rw [Abs2rel.editRange] at he
  split at he
  · cases he
  · rename_i L1 ks1 e1
    cases he
    obtain ⟨-, b⟩ := editL_back pp hd st h.lang ks ks1 L1 ks.length 0 e1 (by omega) hy hr.2 ho.2
    obtain ⟨i, ts, rfl, h1⟩ := erase_node hT
    obtain ⟨b1, b2, ⟨ts', b3, b4⟩, -, -⟩ := b ts h1
    have hp : Abs2rel.Spec.Lab.plain l = .other := by rcases hl with rfl | rfl <;> rfl
    have hni : Rel2abs.Spec.Nice (.node i (Abs2rel.Spec.Lab.plain l) ts) :=
      nice_mk hr.1 (by rw [hp]; intro x; cases x) (by rw [hp]; exact firsts_zero _) b1
    obtain ⟨h', hE, hS, -⟩ := Rel2abs.edit_document (back pp st) h hk i _ ts ts' hr.1 hs hn hni (by rw [OneLang]; exact ⟨ho.1, b2⟩) b3
    exact ⟨h', _, hE, hS, rfl, erase_mk rfl b4⟩

/-! ## Examples -/

/-- A note of the examples. -/
def an (c : Char) (o : ℤ) : Doc := .node (.lab (.note true ⟨[c], o⟩ none)) []

/-- `{ c' { g' } \transpose c d { <c' e'> } b }  \chordmode { e }`. -/
def exDoc : List Doc :=
  [.node .list [an 'c' 1, .node .list [an 'g' 1], .node (.lab (.skip .transpose)) [an 'c' 0, an 'd' 0, .node .list [.node (.lab .chord) [an 'c' 1, an 'e' 1]]], an 'b' 0],
   .node (.lab .chordmode) [.node .list [an 'e' 0]]]

/-- `\relative c' { c { g' } \transpose c d { <c' e'> } b, }  \relative c \chordmode { e }`, with identities of the nodes. -/
def exTree : Rel2abs.Doc := .node 0 .other
  [.node 1 .relative [Rel2abs.tn 2 'c' 1, .node 3 .other [Rel2abs.tn 4 'c' 0, .node 5 .other [Rel2abs.tn 6 'g' 1],
     .node 7 (.skip .transpose) [Rel2abs.tn 8 'c' 0, Rel2abs.tn 9 'd' 0, .node 10 .other [.node 11 .chord [Rel2abs.tn 12 'c' 1, Rel2abs.tn 13 'e' 1]]], Rel2abs.tn 14 'b' (-1)]],
   .node 15 .relative [Rel2abs.tn 16 'c' 0, .node 17 .chordmode [.node 18 .other [Rel2abs.tn 19 'e' 0]]]]

/-- What the example becomes, and it comes back. -/
theorem C105_back_nontrivial : ∃ d', Abs2rel.editRange exPP ⟨true, true⟩ {} [] (.node (.lab .other) exDoc) = .ok d' ∧ erase exTree = toDoc d' ∧
    ∃ h' T', (∃ N, ∀ f ≥ N, Rel2abs.editRange ⟨exPP, true⟩ {} f (store [] exTree) 0 = some (.ok h')) ∧ Shows h' T' ∧ erase T' = toDoc (.node (.lab .other) exDoc) := by
  have hn : (ids exTree).Nodup := by decide +kernel
  have key : ∃ d', Abs2rel.editRange exPP ⟨true, true⟩ {} [] (.node (.lab .other) exDoc) = .ok d' ∧ erase exTree = toDoc d' := ⟨_, by with_unfolding_all rfl, by with_unfolding_all rfl⟩
  obtain ⟨d', e1, e2⟩ := key
  refine ⟨d', e1, e2, ?_⟩
  obtain ⟨k1, k2, k3⟩ := Rel2abs.C89_every_tree [] exTree hn
  obtain ⟨h', T', a, b, _, c⟩ := C105_back_partial exPP exDict ⟨true, true⟩ (.lab .other) exDoc d' (store [] exTree) exTree (.inr rfl)
    (by simp [exDoc, ReadyL, Ready, SimpleL, Simple, NoCheckL, NoCheck, an, Doc.isNote, Doc.lab])
    (by simp [exDoc, toDoc, toDocs, NoRel, Rel2abs.Spec.NoRelL, an, Abs2rel.Spec.Lab.plain])
    (by simp [exDoc, toDoc, toDocs, OneLang, Rel2abs.Spec.OneLangL, an, Abs2rel.Spec.Lab.plain]) e1 e2 k1 k2 hn
  exact ⟨h', T', a, b, c⟩

/-- `{ c' <e' g'> }`. -/
def exChord : Doc := .node (.lab .other) [.node .list [an 'c' 1, .node (.lab .chord) [.node (.lab .other) [an 'e' 1, an 'g' 1]]]]

/-- The converted document: `\relative c' { c <e' g'> }`. -/
def exChordTree : Rel2abs.Doc := .node 0 .other [.node 1 .relative [Rel2abs.tn 2 'c' 1,
  .node 3 .other [Rel2abs.tn 4 'c' 0, .node 5 .chord [.node 6 .other [Rel2abs.tn 7 'e' 1, Rel2abs.tn 8 'g' 1]]]]]

/-- C105: a chord does not come back: `{ c' <e' g'> }` becomes `{ c' <e'' g'''> }`. -/
theorem C105_chord : ∃ d', Abs2rel.editRange exPP ⟨true, true⟩ {} [] exChord = .ok d' ∧ erase exChordTree = toDoc d' ∧
    Rel2abs.result {} exChordTree = some (.ok (.node 0 .other [.node 3 .other [Rel2abs.tn 4 'c' 1,
      .node 5 .chord [.node 6 .other [Rel2abs.tn 7 'e' 2, Rel2abs.tn 8 'g' 3]]]])) := by
  refine ⟨_, by with_unfolding_all rfl, by with_unfolding_all rfl, by with_unfolding_all rfl⟩

end Quickly.RoundTrip
