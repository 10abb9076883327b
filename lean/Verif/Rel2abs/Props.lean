import Verif.Rel2abs.Store
import Verif.Rel2abs.Stay
import Verif.Relative.Props

/-! # Properties C25 and C89: `Rel2abs` on a document -/

namespace Quickly.Rel2abs

open Quickly.Pitch Quickly.Relative Spec Relative.Spec
open Quickly.Pitch.Spec (IsDict)

/-- C25: `rel2abs` on a whole document.  The edit comes to an end, however the loops over lists that change interlock; there is
no `\relative` in the document then, and it sounds as before.

Missing: the document must have one pitch language (`C25_two_languages`); no `\relative` in another (`C25_nested_twice`);
every `\octaveCheck` in `\relative` must be the last in its list (`C25_check_skips`); every `\relative` must have one node of music
(`C25_empty_relative`), the node that is edited may not itself be a `\relative` (`C25_relative_itself`); no `\relative` in `\fixed`
(`C25_relative_in_fixed`) and no `\chordmode` in `\relative` (`C25_chordmode_in_relative`). -/
theorem C25_document_partial (c : Cfg) (hd : ∀ l, IsDict (c.pp l).table) (h : Heap) (hl : Linked h) (i : Id) (l : Lab) (ks : List Doc)
    (hlab : l ≠ .relative) (hs : Shows h (.node i l ks)) (hn : (ids (.node i l ks)).Nodup) (hni : Nice (.node i l ks))
    (ht : Tidy false (.node i l ks)) (hla : OneLang h.lang (.node i l ks)) (hs0 : List Heard)
    (hso : Sounds c.pp.tables (reference c.firstAbs) (mus h.lang (.node i l ks)) hs0)
    (hfi : FixedPlainL (mus h.lang (.node i l ks))) (hap : ApartOkL (· = .transpose) false (mus h.lang (.node i l ks))) :
    ∃ h' T' hs', (∃ N, ∀ f ≥ N, editRange c {} f h i = some (.ok h')) ∧ T'.id = i ∧ Shows h' T' ∧ NoRel T' ∧
      Sounds c.pp.tables (reference c.firstAbs) (mus h.lang T') hs' ∧ pitches hs' = pitches hs0 := by
  obtain ⟨l', ms', hs', e1, e2, e3⟩ := C25_rel2abs_partial c.pp hd c.firstAbs _ hs0 hso hfi hap
  obtain ⟨ts, o1, _, o3⟩ := out_mus c h.lang _ l' ms' hni ht e1
  rw [out, if_neg hlab] at o1
  split at o1
  · simp at o1
  · rename_i ks' ho
    simp only [Except.ok.injEq] at o1
    subst o1
    obtain ⟨h', hE, hS, _⟩ := edit_document c h hl i l ks ks' hlab hs hn hni hla ho
    have hs1 := hs
    rw [Shows] at hs1
    refine ⟨h', .node i l ks', hs', hE, rfl, hS, ?_, ?_, e3⟩
    · rw [NoRel]; exact ⟨hlab, (outL_kept c h.lang ks ks' ho hs1.2.2.2 (nice_other hni hlab).2.2).2⟩
    · rw [o3] at e2
      simpa [musL] using e2

/-- C89: `rel2abs` on a whole document changes nothing but the names and octaves of notes, apart from taking nodes away (`stay` tells which).
What stays is in the same order, nodes outside the document stay as they are, and its root stays where it is.
(Missing: as for `C25_document_partial`.) -/
theorem C89_rest_stays_partial (c : Cfg) (hd : ∀ l, IsDict (c.pp l).table) (h : Heap) (hl : Linked h) (i : Id) (l : Lab) (ks : List Doc)
    (hlab : l ≠ .relative) (hs : Shows h (.node i l ks)) (hn : (ids (.node i l ks)).Nodup) (hni : Nice (.node i l ks))
    (ht : Tidy false (.node i l ks)) (hla : OneLang h.lang (.node i l ks)) (hs0 : List Heard)
    (hso : Sounds c.pp.tables (reference c.firstAbs) (mus h.lang (.node i l ks)) hs0)
    (hfi : FixedPlainL (mus h.lang (.node i l ks))) (hap : ApartOkL (· = .transpose) false (mus h.lang (.node i l ks)))
    (f : ℕ) (h' : Heap) (he : ∀ f' ≥ f, editRange c {} f' h i = some (.ok h')) :
    ∃ T', Shows h' T' ∧ T'.id = i ∧ ids T' = stay false (.node i l ks) ∧ Kept h T' ∧ h'.lang = h.lang ∧ h'.parent i = h.parent i ∧
      ∀ j ∉ ids (.node i l ks), h'.lab j = h.lab j ∧ h'.kids j = h.kids j ∧ h'.parent j = h.parent j := by
  obtain ⟨l', ms', hs', e1, e2, e3⟩ := C25_rel2abs_partial c.pp hd c.firstAbs _ hs0 hso hfi hap
  obtain ⟨ts, o1, _, o3⟩ := out_mus c h.lang _ l' ms' hni ht e1
  have o2 := o1
  rw [out, if_neg hlab] at o2
  split at o2
  · simp at o2
  · rename_i ks' ho
    simp only [Except.ok.injEq] at o2
    subst o2
    obtain ⟨h2, ⟨N, hE⟩, hS, a1, a2, a3⟩ := edit_document c h hl i l ks ks' hlab hs hn hni hla ho
    have e : h2 = h' := by
      have x := he (max f N) (le_max_left ..)
      have y := hE (max f N) (le_max_right ..)
      simp only at y
      rw [x] at y
      simpa using y.symm
    subst e
    have hk := (out_kept c h.lang _ _ o1 hs hni).1
    have hi := out_stay c h.lang _ _ hni o1
    rw [KeptL] at hk
    refine ⟨.node i l ks', hS, rfl, by simpa [idsL] using hi, hk.1, a1, a2, a3⟩

/-- C89: every tree is the tree of some nodes in memory, so the hypotheses on the memory are no restriction. -/
theorem C89_every_tree (L : Str) (T : Doc) (hn : (ids T).Nodup) : Linked (store L T) ∧ Shows (store L T) T ∧ (store L T).lang = L :=
  ⟨store_linked L T hn, store_shows L T hn, rfl⟩

/-! ## Examples -/

/-- A note of the examples. -/
def tn (i : Id) (ch : Char) (o : ℤ) : Doc := .node i (.note true ⟨[ch], o⟩ none) []

/-- The settings of the examples. -/
def exCfg : Cfg := ⟨exPP, true⟩

/-- `{ c' \relative c' { c <e g> \transpose c d { c' } b \octaveCheck c' } \relative { %{%} g' } }`. -/
def exTree : Doc := .node 0 .other [tn 1 'c' 1,
  .node 2 .relative [tn 3 'c' 1, .node 4 .other [tn 5 'c' 0, .node 6 .chord [.node 7 .other [tn 8 'e' 0, tn 9 'g' 0]],
    .node 10 (.skip .transpose) [tn 11 'c' 0, tn 12 'd' 0, .node 13 .other [tn 14 'c' 1]], tn 15 'b' 0, .node 16 .check [tn 17 'c' 1]]],
  .node 18 .relative [.node 19 .comment [], .node 20 .other [tn 21 'g' 1]]]

theorem exTree_mus : mus [] exTree = [.group [.note (nt 'c' 1), .absolute [],
    .relative (some (nt 'c' 1)) [.group [.note (nt 'c' 0), .absolute [], .chord [nt 'e' 0, nt 'g' 0], .absolute [], .absolute [],
      .apart .transpose [nt 'c' 0, nt 'd' 0] [.group [.note (nt 'c' 1), .absolute []]], .note (nt 'b' 0), .absolute [], .check (nt 'c' 1)]],
    .relative none [.group [.note (nt 'g' 1), .absolute []]]]] := rfl

theorem exTree_sounds : Sounds exPP.tables (reference true) (mus [] exTree) [⟨⟨0, 0, 0⟩, none⟩, ⟨⟨0, 0, 0⟩, none⟩, ⟨⟨0, 2, 0⟩, none⟩,
    ⟨⟨0, 4, 0⟩, none⟩, ⟨⟨0, 0, 0⟩, none⟩, ⟨⟨-1, 6, 0⟩, none⟩, ⟨⟨0, 4, 0⟩, none⟩] :=
  (sounds_iff exPP exDict _ _ _).2 rfl

theorem exTree_nice : Nice exTree := by
  have h1 : ∀ ks : List Doc, NoRelL ks → LastChecksL ks → (∃ b, real ks = [b] ∧ b.lab ≠ .check) → RelOk ks := fun ks a b d => ⟨a, b, .inl d⟩
  have h2 : ∀ ks : List Doc, NoRelL ks → LastChecksL ks → (∃ s b, real ks = [s, b] ∧ s.lab.isPitch = true ∧ b.lab ≠ .check) → RelOk ks :=
    fun ks a b d => ⟨a, b, .inr d⟩
  simp only [exTree, Nice, NiceL, tn, and_true]
  refine ⟨by simp [Lab.closed], by simp [firsts, Lab.args, NoRelL], ⟨by simp [Lab.closed], by simp [firsts, Lab.args, NoRelL]⟩, ?_, ?_⟩
  · refine h2 _ ?_ ?_ ⟨_, _, rfl, rfl, by simp [Doc.lab]⟩
    · simp [NoRelL, NoRel]
    · simp [LastChecksL, LastChecks, Doc.lab]
  · refine h1 _ ?_ ?_ ⟨_, rfl, by simp [Doc.lab]⟩
    · simp [NoRelL, NoRel]
    · simp [LastChecksL, LastChecks]

example : ∃ h' T' hs', (∃ N, ∀ f ≥ N, editRange exCfg {} f (store [] exTree) 0 = some (.ok h')) ∧ T'.id = 0 ∧ Shows h' T' ∧ NoRel T' ∧
    Sounds exPP.tables (reference true) (mus [] T') hs' ∧ pitches hs' = [⟨0, 0, 0⟩, ⟨0, 0, 0⟩, ⟨0, 2, 0⟩, ⟨0, 4, 0⟩, ⟨0, 0, 0⟩, ⟨-1, 6, 0⟩, ⟨0, 4, 0⟩] := by
  have hn : (ids exTree).Nodup := by decide
  exact C25_document_partial exCfg exDict (store [] exTree) (store_linked _ _ hn) 0 .other _ (by simp) (store_shows _ _ hn) hn exTree_nice
    (by simp [Tidy, TidyL, tn]) (by simp [OneLang, OneLangL, tn]) _ exTree_sounds
    (by show FixedPlainL (mus [] exTree); rw [exTree_mus]; simp [FixedPlainL, FixedPlain])
    (by show ApartOkL (· = .transpose) false (mus [] exTree); rw [exTree_mus]; simp [ApartOkL, ApartOk])

/-- What `editRange` leaves of a tree. -/
def result (sel : Sel) (T : Doc) : Option (Py Doc) := match editRange exCfg sel 100 (store [] T) T.id with
  | none => none
  | some (.error e) => some (.error e)
  | some (.ok h) => some (.ok (read h 10 T.id))

/-- `{ c' { c' <e' g'> \transpose c d { c' } b } { g' } }`. -/
example : result {} exTree = some (.ok (.node 0 .other [tn 1 'c' 1,
    .node 4 .other [tn 5 'c' 1, .node 6 .chord [.node 7 .other [tn 8 'e' 1, tn 9 'g' 1]],
      .node 10 (.skip .transpose) [tn 11 'c' 0, tn 12 'd' 0, .node 13 .other [tn 14 'c' 1]], tn 15 'b' 0],
    .node 20 .other [tn 21 'g' 1]])) := by with_unfolding_all rfl

example : stay false exTree = [0, 1, 4, 5, 6, 7, 8, 9, 10, 11, 12, 13, 14, 15, 20, 21] := rfl

/-! ## Where it goes wrong -/

/-- C25 fails when an `\octaveCheck` is not the last in its list: L123 removes it from the list that `notes()` is iterating over, so the next node is
skipped.  `{ \relative c' { c \octaveCheck c' e' } }` sounds c' e'', and becomes `{ { c' e' } }`. -/
theorem C25_check_skips :
    ∃ T T' : Doc, result {} T = some (.ok T') ∧ Sounds exPP.tables (reference true) (mus [] T) [⟨⟨0, 0, 0⟩, none⟩, ⟨⟨1, 2, 0⟩, none⟩] ∧
      Sounds exPP.tables (reference true) (mus [] T') [⟨⟨0, 0, 0⟩, none⟩, ⟨⟨0, 2, 0⟩, none⟩] :=
  ⟨.node 0 .other [.node 1 .relative [tn 2 'c' 1, .node 3 .other [tn 4 'c' 0, .node 5 .check [tn 6 'c' 1], tn 7 'e' 1]]],
    .node 0 .other [.node 3 .other [tn 4 'c' 1, tn 7 'e' 1]], by with_unfolding_all rfl,
    (sounds_iff exPP exDict _ _ _).2 rfl, (sounds_iff exPP exDict _ _ _).2 rfl⟩

/-- C25 fails for a `\relative` in another one, after a note: L73-74 converts it when the note has been handled, then the loop comes to its notes and converts
them again.  `{ \relative c' { c \relative c' { c' } } }` sounds c' c'', and becomes `{ { c' { c''' } } }`. -/
theorem C25_nested_twice :
    ∃ T T' : Doc, result {} T = some (.ok T') ∧ Sounds exPP.tables (reference true) (mus [] T) [⟨⟨0, 0, 0⟩, none⟩, ⟨⟨1, 0, 0⟩, none⟩] ∧
      Sounds exPP.tables (reference true) (mus [] T') [⟨⟨0, 0, 0⟩, none⟩, ⟨⟨2, 0, 0⟩, none⟩] :=
  ⟨.node 0 .other [.node 1 .relative [tn 2 'c' 1, .node 3 .other [tn 4 'c' 0, .node 5 .relative [tn 6 'c' 1, .node 7 .other [tn 8 'c' 1]]]]],
    .node 0 .other [.node 3 .other [tn 4 'c' 1, .node 7 .other [tn 8 'c' 3]]], by with_unfolding_all rfl,
    (sounds_iff exPP exDict _ _ _).2 rfl, (sounds_iff exPP exDict _ _ _).2 rfl⟩

/-- Two languages: in that with the name `x` the note c is named `x`. -/
def exPP2 : Langs := fun l => if l = ['x'] then { lang := .other, table := [(['x'], (-1, 0, 0))] } else exPP l

/-- C25 fails for documents with two languages: the first note of the first `\relative` makes L73-74 convert the second, but no one has seen the
`\language` in between.  `{ \relative { c' } \language "x" \relative { x' } }` raises KeyError. -/
theorem C25_two_languages :
    editRange ⟨exPP2, true⟩ {} 100 (store [] (.node 0 .other [.node 1 .relative [.node 2 .other [tn 3 'c' 1]], .node 4 (.language ['x']) [],
      .node 5 .relative [.node 6 .other [tn 7 'x' 1]]])) 0 = some (.error .keyError) := by with_unfolding_all rfl

/-- The second `\relative` alone can be converted. -/
example : ∃ h, editRange ⟨exPP2, true⟩ {} 100 (store [] (.node 0 .other [.node 4 (.language ['x']) [],
      .node 5 .relative [.node 6 .other [tn 7 'x' 1]]])) 0 = some (.ok h) := ⟨_, by with_unfolding_all rfl⟩

/-- C25 fails when a `\relative` has no music at all: the list gets shorter, and the loop, which asked for its length before, raises
IndexError. -/
theorem C25_empty_relative : result {} (.node 0 .other [.node 1 .relative [], tn 2 'c' 1]) = some (.error .indexError) := by with_unfolding_all rfl

/-- C25 fails when the node that is edited is itself the `\relative`: only the nodes in it are looked at. -/
theorem C25_relative_itself :
    result {} (.node 0 .relative [.node 1 .other [tn 2 'c' 1]]) = some (.ok (.node 0 .relative [.node 1 .other [tn 2 'c' 1]])) := by with_unfolding_all rfl

/-- C89 fails for a selection: with just the first `\relative` selected, the second becomes absolute too. -/
theorem C89_outside_selection :
    result { touched := (· ∈ [1, 2, 3]), inside := (· ∈ [1, 2, 3]) }
        (.node 0 .other [.node 1 .relative [.node 2 .other [tn 3 'c' 1]], .node 4 .relative [.node 5 .other [tn 6 'c' 1]]]) =
      some (.ok (.node 0 .other [.node 2 .other [tn 3 'c' 1], .node 5 .other [tn 6 'c' 1]])) := by with_unfolding_all rfl

/-- C89 fails for comments between `\relative` and its music: they are lost. -/
theorem C89_comment_lost :
    result {} (.node 0 .other [.node 1 .relative [.node 2 .comment [], .node 3 .other [tn 4 'c' 1]]]) =
      some (.ok (.node 0 .other [.node 3 .other [tn 4 'c' 1]])) := by with_unfolding_all rfl

end Quickly.Rel2abs
