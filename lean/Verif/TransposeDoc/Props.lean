import Verif.TransposeDoc.Music
import Verif.TransposeDoc.Succeeds
import Verif.Rel2abs.Props

/-! # Properties C24 and C90: `Transpose` on the nodes of a document -/

namespace Quickly.TransposeDoc

open Quickly.Pitch Quickly.Relative Quickly.Rel2abs Quickly.Transpose Quickly.TransposeDoc.Spec Quickly.Relative.Spec
open Quickly.Rel2abs.Spec (ids idsL)
open Quickly.Pitch.Spec (IsDict Means)

/-- C90: transposing changes nothing but the pitches of the notes that are selected, in any document: all nodes stay in their places,
and an octave check does not come or go. -/
theorem C90_only_pitches (c : Ctx) (sel : Id → Bool) (L : Str) (t t' : Doc) (h : editRange c sel L t = .ok t') : Same sel t t' := by
  unfold editRange at h
  split at h
  · cases h
  · rename_i e
    cases h
    exact visit_same c sel t _ _ _ _ _ _ e

mutual
theorem same_none (sel : Id → Bool) : ∀ (t t' : Doc), (∀ i ∈ ids t, sel i = false) → Same sel t t' → t' = t
  | .node i l ks, .node j m gs, hs, h => by
    rw [Same] at h
    obtain ⟨rfl, h1, h2⟩ := h
    rw [sameL_none sel ks gs (fun i hi => hs i (by simp [ids, hi])) h2]
    rcases h1 with rfl | ⟨h1, -⟩
    · rfl
    · rw [hs i (by simp [ids])] at h1
      cases h1
theorem sameL_none (sel : Id → Bool) : ∀ (ks gs : List Doc), (∀ i ∈ idsL ks, sel i = false) → SameL sel ks gs → gs = ks
  | [], [], _, _ => rfl
  | [], _ :: _, _, h => by simp [SameL] at h
  | _ :: _, [], _, h => by simp [SameL] at h
  | k :: ks, g :: gs, hs, h => by
    rw [SameL] at h
    rw [same_none sel k g (fun i hi => hs i (by simp [idsL, hi])) h.1, sameL_none sel ks gs (fun i hi => hs i (by simp [idsL, hi])) h.2]
end

/-- C90: if no node of a document is selected, it stays as it is. -/
theorem C90_nothing_selected (c : Ctx) (sel : Id → Bool) (L : Str) (t t' : Doc) (hs : ∀ i ∈ ids t, sel i = false)
    (h : editRange c sel L t = .ok t') : t' = t :=
  same_none sel t t' hs (C90_only_pitches c sel L t t' h)

/-- C90: transposing a document succeeds if all notes can be read in the language that was set last before them, and there is a name in that
language for what they become. -/
theorem C90_succeeds (pp : Langs) (hd : ∀ l, IsDict (pp l).table) (h1 : ∀ l, OneOctave (pp l).table) (t : Transposer)
    (tr : Pitch → Pitch) (ht : Runs t tr) (firstAbs : Bool) (sel : Id → Bool) (L : Str) (d : Doc)
    (hn : AllNotes (fun l nd => ∃ p, (pp l).readNode nd = .ok p ∧ ∃ name o, Means (pp l).table name o (tr p).note (tr p).alter) L d) :
    ∃ d', editRange ⟨pp, tr, t.octave, firstAbs⟩ sel L d = .ok d' := by
  obtain ⟨s', t', e, -⟩ := visit_succeeds ⟨pp, tr, t.octave, firstAbs⟩ ⟨hd, h1, runs_down t tr ht⟩ sel d false (.pitches 0) L hn
  exact ⟨t', by rw [editRange, e]⟩

/-- C24: the music of a transposed document is the transposed music, whatever is selected and whatever languages are used.  So what C24 says of the
music is true of documents. -/
theorem C24_document (c : Ctx) (sel : Id → Bool) (L : Str) (t t' : Doc) (hc : Clear false t) (h : editRange c sel L t = .ok t') :
    transposeDoc c (mus sel L t) = .ok (mus sel L t') := by
  unfold editRange at h
  split at h
  · cases h
  · rename_i e
    cases h
    obtain ⟨-, w, -, b⟩ := sim c sel t false _ _ _ _ _ (.pitches 0) hc e (.inl ⟨0, rfl, rfl⟩)
    rw [transposeDoc, b]

mutual
theorem note_writable {sel : Id → Bool} {L : Str} {k : Doc} {n : Note} (hs : ∀ i, sel i = true) (h : note? sel L k = some n) : n.writable = true := by
  obtain ⟨i, l, ks⟩ := k
  cases l with
  | note p nd chk => cases h; exact hs i
  | _ => cases h
theorem notesIn_writable (sel : Id → Bool) (hs : ∀ i, sel i = true) : ∀ (t : Doc) (L : Str), ∀ n ∈ notesIn sel L t, n.writable = true
  | .node i l ks, L, n, hn => by
    cases l with
    | note p nd chk =>
      rw [notesIn, List.mem_singleton] at hn
      subst hn
      exact hs i
    | chordmode => exact notesInL_writable sel hs ks L n (by simpa [notesIn] using hn)
    | other => exact notesInL_writable sel hs ks L n (by simpa [notesIn] using hn)
    | _ => simp [notesIn] at hn
theorem notesInL_writable (sel : Id → Bool) (hs : ∀ i, sel i = true) : ∀ (ks : List Doc) (L : Str), ∀ n ∈ notesInL sel L ks, n.writable = true
  | [], L, n, hn => by simp [notesInL] at hn
  | k :: ks, L, n, hn => by
    rw [notesInL, List.mem_append] at hn
    rcases hn with hn | hn
    · exact notesIn_writable sel hs k L n hn
    · exact notesInL_writable sel hs ks _ n hn
end

theorem partsL_append (as bs : List Mus) : partsL (as ++ bs) = partsL as ++ partsL bs := by
  induction as with
  | nil => rfl
  | cons a as ih => simp [partsL, ih]

theorem partsL_map (f : Note → Mus) (k : Kind) (hf : ∀ n, parts (f n) = [(k, n)]) (ns : List Note) : partsL (ns.map f) = ns.map fun n => (k, n) := by
  induction ns with
  | nil => rfl
  | cons n ns ih => simp [partsL, ih, hf]

mutual
theorem mus_writable (sel : Id → Bool) (hs : ∀ i, sel i = true) : ∀ (t : Doc) (L : Str), ∀ x ∈ partsL (mus sel L t), x.2.writable = true
  | .node i l ks, L, x, hx => by
    cases l with
    | note p nd chk =>
      simp only [mus, partsL, parts, List.append_nil, List.singleton_append, List.mem_cons] at hx
      rcases hx with rfl | hx
      · exact hs i
      · exact musL_writable sel hs ks L 0 x hx
    | chord =>
      simp only [mus, partsL, parts, List.mem_append, List.mem_map] at hx
      rcases hx with ⟨n, hn, rfl⟩ | hx
      · exact notesInL_writable sel hs ks L n hn
      · exact extrasL_writable sel hs ks L x hx
    | check =>
      rw [mus, partsL_map _ .octaveCheck (fun _ => rfl), List.mem_map] at hx
      obtain ⟨n, hn, rfl⟩ := hx
      exact notesInL_writable sel hs ks L n hn
    | relative =>
      rw [mus] at hx
      cases hst : start? sel L ks with
      | none =>
        rw [hst] at hx
        simp only [partsL, parts, List.append_nil] at hx
        exact musL_writable sel hs ks L _ x hx
      | some s =>
        rw [hst] at hx
        simp only [partsL, parts, List.append_nil, List.mem_cons] at hx
        rcases hx with rfl | hx
        · unfold start? at hst
          split at hst
          · exact note_writable hs hst
          · cases hst
        · exact musL_writable sel hs ks L _ x hx
    | skip kd => cases kd with
      | absolute =>
        simp only [mus, partsL, parts, List.append_nil] at hx
        exact musL_writable sel hs ks L 0 x hx
      | key =>
        rw [mus, partsL_map _ .key (fun _ => rfl), List.mem_map] at hx
        obtain ⟨n, hn, rfl⟩ := hx
        exact notesInL_writable sel hs ks L n hn
      | fixed =>
        rw [mus] at hx
        split at hx
        · rename_i n ns e
          simp only [partsL, parts, List.append_nil, List.mem_cons] at hx
          rcases hx with rfl | hx
          · have : n ∈ ((real ks).take 1).filterMap (note? sel L) := by rw [e]; simp
            obtain ⟨k, -, hk⟩ := List.mem_filterMap.1 this
            exact note_writable hs hk
          · exact musL_writable sel hs ks L 1 x hx
        · simp only [partsL, parts, List.append_nil] at hx
          exact musL_writable sel hs ks L 1 x hx
      | transpose =>
        simp only [mus, partsL, parts, List.append_nil, List.mem_append, List.mem_map] at hx
        rcases hx with ⟨n, hn, rfl⟩ | hx
        · obtain ⟨k, -, hk⟩ := List.mem_filterMap.1 hn
          exact note_writable hs hk
        · exact musL_writable sel hs ks L 2 x hx
      | silent => simp [mus, partsL] at hx
    | language l => simp [mus, partsL] at hx
    | comment => simp [mus, partsL] at hx
    | chordmode =>
      simp only [mus, partsL, parts, List.append_nil, List.map_nil, List.nil_append] at hx
      exact musL_writable sel hs ks L 0 x hx
    | other =>
      simp only [mus, partsL, parts, List.append_nil] at hx
      exact musL_writable sel hs ks L 0 x hx
theorem musL_writable (sel : Id → Bool) (hs : ∀ i, sel i = true) : ∀ (ks : List Doc) (L : Str) (n : ℕ), ∀ x ∈ partsL (musL sel L n ks), x.2.writable = true
  | [], L, n, x, hx => by simp [musL, partsL] at hx
  | k :: ks, L, n, x, hx => by
    cases n with
    | zero =>
      rw [musL, partsL_append, List.mem_append] at hx
      rcases hx with hx | hx
      · exact mus_writable sel hs k L x hx
      · exact musL_writable sel hs ks _ 0 x hx
    | succ n =>
      rw [musL] at hx
      split at hx
      · exact musL_writable sel hs ks _ (n + 1) x hx
      · exact musL_writable sel hs ks _ n x hx
theorem extras_writable (sel : Id → Bool) (hs : ∀ i, sel i = true) : ∀ (t : Doc) (L : Str), ∀ x ∈ partsL (extras sel L t), x.2.writable = true
  | .node i l ks, L, x, hx => by
    cases l with
    | note p nd chk =>
      simp only [extras, partsL, parts, List.append_nil] at hx
      exact musL_writable sel hs ks L 0 x hx
    | chordmode => exact extrasL_writable sel hs ks L x (by simpa [extras] using hx)
    | other => exact extrasL_writable sel hs ks L x (by simpa [extras] using hx)
    | _ => simp [extras, partsL] at hx
theorem extrasL_writable (sel : Id → Bool) (hs : ∀ i, sel i = true) : ∀ (ks : List Doc) (L : Str), ∀ x ∈ partsL (extrasL sel L ks), x.2.writable = true
  | [], L, x, hx => by simp [extrasL, partsL] at hx
  | k :: ks, L, x, hx => by
    rw [extrasL, partsL_append, List.mem_append] at hx
    rcases hx with hx | hx
    · exact extras_writable sel hs k L x hx
    · exact extrasL_writable sel hs ks _ x hx
end

/-- C90: a document of which all is transposed sounds transposed.  Its notes may be in several languages.

Missing: the document must be `Clear` (`C90_comment_in_transpose`); as for `C24_transposes_partial` the pitch of a `\fixed` must
go as many octaves up as `transposer.octave`, and there is no `\transpose` or `\chordmode` in `\relative`. -/
theorem C90_sounds_partial (pp : Langs) (hd : ∀ l, IsDict (pp l).table) (h1 : ∀ l, OneOctave (pp l).table) (t : Transposer)
    (tr : Pitch → Pitch) (ht : Runs t tr) (firstAbs : Bool) (sel : Id → Bool) (hsel : ∀ i, sel i = true) (L : Str) (d d' : Doc) (hc : Clear false d)
    (hs : List Heard) (hf : ∀ x ∈ partsL (mus sel L d), x.1 = .fixed → ∀ q, AbsNote pp.tables x.2 q → (tr q).octave = q.octave + t.octave)
    (ha : ApartOkL (fun _ => False) false (mus sel L d)) (hs0 : Sounds pp.tables (reference firstAbs) (mus sel L d) hs)
    (he : editRange ⟨pp, tr, t.octave, firstAbs⟩ sel L d = .ok d') :
    ∃ hs', Sounds pp.tables (reference firstAbs) (mus sel L d') hs' ∧ pitches hs' = (pitches hs).map tr :=
  C24_transposes_partial pp hd h1 t tr ht firstAbs _ _ hs (mus_writable sel hsel d L) hf ha hs0 (C24_document _ sel L d d' hc he)

/-- Two languages: in that with the name `x` the names have an x in front. -/
def exPP2 : Langs := fun l => if l = ['x'] then { lang := .other, table := exTable.map fun x => ('x' :: x.1, x.2) } else exPP l

/-- A note with a name of two letters. -/
def tx (i : Id) (ch : Char) (o : ℤ) : Doc := .node i (.note true ⟨['x', ch], o⟩ none) []

/-- `{ c' \relative c' { c <e g> } \language "x" \relative { %{%} xc' \octaveCheck xc' xe' } }`. -/
def exTree : Doc := .node 0 .other [tn 1 'c' 1,
  .node 2 .relative [tn 3 'c' 1, .node 4 .other [tn 5 'c' 0, .node 6 .chord [.node 7 .other [tn 8 'e' 0, tn 9 'g' 0]]]],
  .node 10 (.language ['x']) [], .node 11 .relative [.node 12 .comment [], .node 13 .other [tx 14 'c' 1, .node 15 .check [tx 16 'c' 1], tx 17 'e' 1]]]

theorem exTree_mus : mus (fun _ => true) [] exTree = [.group [.note (nt 'c' 1), .absolute [],
    .relative (some (nt 'c' 1)) [.group [.note (nt 'c' 0), .absolute [], .chord [nt 'e' 0, nt 'g' 0], .absolute [], .absolute []]],
    .relative none [.group [.note { node := ⟨['x', 'c'], 1⟩, lang := ['x'] }, .absolute [], .check { node := ⟨['x', 'c'], 1⟩, lang := ['x'] },
      .note { node := ⟨['x', 'e'], 1⟩, lang := ['x'] }, .absolute []]]]] := rfl

theorem exTree_clear : Clear false exTree := by
  simp only [exTree, Clear, ClearL, FlatL, Flat, DullL, tn, tx, and_true, true_and, Front]
  refine ⟨?_, ?_⟩
  · intro s b rest h
    simp only [real, Doc.lab, List.filter_cons] at h
    simp at h
    exact .inl (by rw [← h.1]; simp [Plain, DullL])
  · intro s b rest h
    simp [real, Doc.lab] at h

theorem exDict2 (l : Str) : IsDict (exPP2 l).table := by
  unfold exPP2
  split
  · show IsDict (exTable.map fun x => ('x' :: x.1, x.2))
    unfold IsDict
    decide +kernel
  · exact exDict l

theorem exOne2 (l : Str) : OneOctave (exPP2 l).table := by
  unfold exPP2
  split
  · refine ⟨-1, ?_⟩
    show ∀ item ∈ exTable.map fun x => ('x' :: x.1, x.2), item.2.1 = -1
    decide +kernel
  · exact exOne l

/-- The hypotheses hold for the example.  It sounds c' c' e' g' c' e'' and becomes d' d' fis' a' d' fis''. -/
example : ∃ tr d' hs', Runs exT tr ∧ editRange ⟨exPP2, tr, exT.octave, true⟩ (fun _ => true) [] exTree = .ok d' ∧ Same (fun _ => true) exTree d' ∧
    Sounds exPP2.tables (reference true) (mus (fun _ => true) [] d') hs' ∧
    pitches hs' = [⟨0, 1, 0⟩, ⟨0, 1, 0⟩, ⟨0, 3, 1/2⟩, ⟨0, 5, 0⟩, ⟨0, 1, 0⟩, ⟨1, 3, 1/2⟩] := by
  obtain ⟨tr, ht⟩ := runs_exists exT majorScale rfl
  have at' : ∀ p q, exT.transpose 3 p = some (.ok q) → tr p = q :=
    fun p q h => C22_deterministic exT _ _ _ (ht p) ⟨3, h⟩
  have c1 := at' ⟨0, 0, 0⟩ ⟨0, 1, 0⟩ (by decide +kernel)
  have c0 := at' ⟨-1, 0, 0⟩ ⟨-1, 1, 0⟩ (by decide +kernel)
  have e1 := at' ⟨0, 2, 0⟩ ⟨0, 3, 1/2⟩ (by decide +kernel)
  have e2 := at' ⟨1, 2, 0⟩ ⟨1, 3, 1/2⟩ (by decide +kernel)
  have e0 := at' ⟨-1, 2, 0⟩ ⟨-1, 3, 1/2⟩ (by decide +kernel)
  have g1 := at' ⟨0, 4, 0⟩ ⟨0, 5, 0⟩ (by decide +kernel)
  have g0 := at' ⟨-1, 4, 0⟩ ⟨-1, 5, 0⟩ (by decide +kernel)
  obtain ⟨d', hd'⟩ := C90_succeeds exPP2 exDict2 exOne2 exT tr ht true (fun _ => true) [] exTree (by
    simp only [exTree, AllNotes, AllNotesL, tn, tx, after, afterL, and_true, true_and, real, Doc.lab]
    refine ⟨?_, ⟨?_, ?_, ?_, ?_, ?_⟩, ?_, ?_, ?_, ?_⟩
    · exact ⟨⟨0, 0, 0⟩, by decide +kernel, ['d'], -1, by rw [c1]; unfold Means; decide +kernel⟩
    · intro i p nd chk gs h
      simp at h
      rw [h.2.2]
      trivial
    · exact ⟨⟨0, 0, 0⟩, by decide +kernel, ['d'], -1, by rw [c1]; unfold Means; decide +kernel⟩
    · exact ⟨⟨-1, 0, 0⟩, by decide +kernel, ['d'], -1, by rw [c0]; unfold Means; decide +kernel⟩
    · exact ⟨⟨-1, 2, 0⟩, by decide +kernel, ['f', 'i', 's'], -1, by rw [e0]; unfold Means; decide +kernel⟩
    · exact ⟨⟨-1, 4, 0⟩, by decide +kernel, ['a'], -1, by rw [g0]; unfold Means; decide +kernel⟩
    · intro i p nd chk gs h
      simp at h
    · exact ⟨⟨0, 0, 0⟩, by decide +kernel, ['x', 'd'], -1, by rw [c1]; unfold Means; decide +kernel⟩
    · exact ⟨⟨0, 0, 0⟩, by decide +kernel, ['x', 'd'], -1, by rw [c1]; unfold Means; decide +kernel⟩
    · exact ⟨⟨0, 2, 0⟩, by decide +kernel, ['x', 'f', 'i', 's'], -1, by rw [e1]; unfold Means; decide +kernel⟩)
  obtain ⟨hs', a1, a2⟩ := C90_sounds_partial exPP2 exDict2 exOne2 exT tr ht true (fun _ => true) (fun _ => rfl) [] exTree d' exTree_clear
    [⟨⟨0, 0, 0⟩, none⟩, ⟨⟨0, 0, 0⟩, none⟩, ⟨⟨0, 2, 0⟩, none⟩, ⟨⟨0, 4, 0⟩, none⟩, ⟨⟨0, 0, 0⟩, none⟩, ⟨⟨1, 2, 0⟩, none⟩]
    (by
      rw [exTree_mus]
      intro x hx
      simp only [partsL, parts, List.map_cons, List.map_nil, List.append_nil, List.cons_append, List.nil_append,
        List.mem_cons, List.not_mem_nil, or_false] at hx
      rcases hx with rfl | rfl | rfl | rfl | rfl | rfl | rfl | rfl <;> (intro h; cases h))
    (by rw [exTree_mus]; simp [ApartOkL, ApartOk]) ((sounds_iff exPP2 exDict2 _ _ _).2 rfl) hd'
  refine ⟨tr, d', hs', ht, hd', C90_only_pitches _ _ _ _ _ hd', a1, ?_⟩
  rw [a2]
  simp only [pitches, List.map_cons, List.map_nil, c1, e1, g1, e2]

/-! ## Where it goes wrong -/

/-- C90 fails for a comment among the pitches of a `\transpose`: L166 takes the first two nodes for the pitches, and the comment is one of them.
From c to c' of the next octave, `\transpose %{%} c d { c' }` becomes `\transpose %{%} c d' { c'' }`; without the comment it
becomes `\transpose c d { c'' }`. -/
theorem C90_comment_in_transpose : ∃ tr, Runs exOct tr ∧
    editRange ⟨exPP, tr, exOct.octave, true⟩ (fun _ => true) [] (.node 0 (.skip .transpose) [.node 1 .comment [], tn 2 'c' 0, tn 3 'd' 0,
      .node 4 .other [tn 5 'c' 1]]) = .ok (.node 0 (.skip .transpose) [.node 1 .comment [], tn 2 'c' 0, tn 3 'd' 1, .node 4 .other [tn 5 'c' 2]]) ∧
    editRange ⟨exPP, tr, exOct.octave, true⟩ (fun _ => true) [] (.node 0 (.skip .transpose) [tn 2 'c' 0, tn 3 'd' 0,
      .node 4 .other [tn 5 'c' 1]]) = .ok (.node 0 (.skip .transpose) [tn 2 'c' 0, tn 3 'd' 0, .node 4 .other [tn 5 'c' 2]]) := by
  obtain ⟨tr, ht⟩ := runs_exists exOct majorScale rfl
  have at' : ∀ p q, exOct.transpose 3 p = some (.ok q) → tr p = q :=
    fun p q h => C22_deterministic exOct _ _ _ (ht p) ⟨3, h⟩
  have c1 := at' ⟨0, 0, 0⟩ ⟨1, 0, 0⟩ (by decide +kernel)
  have c0 := at' ⟨-1, 0, 0⟩ ⟨0, 0, 0⟩ (by decide +kernel)
  have d0 := at' ⟨-1, 1, 0⟩ ⟨0, 1, 0⟩ (by decide +kernel)
  have o : exOct.octave = 1 := by decide +kernel
  have r1 : (exPP []).readNode ⟨['c'], 1⟩ = .ok ⟨0, 0, 0⟩ := by decide +kernel
  have r2 : (exPP []).readNode ⟨['c'], 0⟩ = .ok ⟨-1, 0, 0⟩ := by decide +kernel
  have r3 : (exPP []).readNode ⟨['d'], 0⟩ = .ok ⟨-1, 1, 0⟩ := by decide +kernel
  have w1 : (exPP []).writeNode ⟨['c'], 1⟩ ⟨1, 0, 0⟩ = .ok ⟨['c'], 2⟩ := by decide +kernel
  have w2 : (exPP []).writeNode ⟨['c'], 0⟩ ⟨-1, 0, 0⟩ = .ok ⟨['c'], 0⟩ := by decide +kernel
  have w3 : (exPP []).writeNode ⟨['d'], 0⟩ ⟨0, 1, 0⟩ = .ok ⟨['d'], 1⟩ := by decide +kernel
  have w4 : (exPP []).writeNode ⟨['d'], 0⟩ ⟨-1, 1, 0⟩ = .ok ⟨['d'], 0⟩ := by decide +kernel
  refine ⟨tr, ht, ?_, ?_⟩ <;>
    simp [editRange, visit, list, consume, transposeAbs, Processor.process, tn, setNote, down, o, r1, r2, r3, w1, w2, w3, w4, c1, c0, d0]

/-- C90 fails for a selection in a `\relative`: the node that is edited is the music in it, and nobody knows that it is relative.  The music of
`\relative c' { c g }` from c to a becomes `{ a e' }`, so what sounded c' g sounds a e' and not a' e'. -/
theorem C90_inside_relative : ∃ t tr, Runs t tr ∧
    editRange ⟨exPP, tr, t.octave, true⟩ (fun _ => true) [] (.node 2 .other [tn 3 'c' 0, tn 4 'g' 0]) = .ok (.node 2 .other [tn 3 'a' 0, tn 4 'e' 1]) ∧
    Sounds exPP.tables (reference true) (mus (fun _ => true) [] (.node 0 .relative [tn 1 'c' 1, .node 2 .other [tn 3 'c' 0, tn 4 'g' 0]]))
      [⟨⟨0, 0, 0⟩, none⟩, ⟨⟨-1, 4, 0⟩, none⟩] ∧
    Sounds exPP.tables (reference true) (mus (fun _ => true) [] (.node 0 .relative [tn 1 'c' 1, .node 2 .other [tn 3 'a' 0, tn 4 'e' 1]]))
      [⟨⟨-1, 5, 0⟩, none⟩, ⟨⟨0, 2, 0⟩, none⟩] ∧
    tr ⟨0, 0, 0⟩ = ⟨0, 5, 0⟩ ∧ tr ⟨-1, 4, 0⟩ = ⟨0, 2, 0⟩ := by
  let t := Transposer.make ⟨-1, 0, 0⟩ ⟨-1, 5, 0⟩ majorScale
  obtain ⟨tr, ht⟩ := runs_exists t majorScale rfl
  have at' : ∀ p q, t.transpose 3 p = some (.ok q) → tr p = q :=
    fun p q h => C22_deterministic t _ _ _ (ht p) ⟨3, h⟩
  have c1 := at' ⟨0, 0, 0⟩ ⟨0, 5, 0⟩ (by decide +kernel)
  have c0 := at' ⟨-1, 0, 0⟩ ⟨-1, 5, 0⟩ (by decide +kernel)
  have g0 := at' ⟨-1, 4, 0⟩ ⟨0, 2, 0⟩ (by decide +kernel)
  have r2 : (exPP []).readNode ⟨['c'], 0⟩ = .ok ⟨-1, 0, 0⟩ := by decide +kernel
  have r3 : (exPP []).readNode ⟨['g'], 0⟩ = .ok ⟨-1, 4, 0⟩ := by decide +kernel
  have w2 : (exPP []).writeNode ⟨['c'], 0⟩ ⟨-1, 5, 0⟩ = .ok ⟨['a'], 0⟩ := by decide +kernel
  have w3 : (exPP []).writeNode ⟨['g'], 0⟩ ⟨0, 2, 0⟩ = .ok ⟨['e'], 1⟩ := by decide +kernel
  refine ⟨t, tr, ht, ?_, (sounds_iff exPP exDict _ _ _).2 rfl, (sounds_iff exPP exDict _ _ _).2 rfl, c1, g0⟩
  simp [editRange, visit, list, consume, transposeAbs, Processor.process, tn, setNote, down, r2, r3, w2, w3, c0, g0]

end Quickly.TransposeDoc
