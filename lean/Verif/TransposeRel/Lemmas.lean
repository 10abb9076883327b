import Verif.TransposeRel.Spec
import Verif.TransposeTrip.Lemmas

/-! # The walk that transposes and the one that makes music relative, in both orders -/

namespace Quickly.TransposeRel

open Quickly.Pitch Quickly.Relative
open Quickly.TransposeDoc (Sink Start visit list skip first setNote consume)
open Quickly.TransposeAbs (write_keep write_after visit_lang list_lang visit_pitches list_pitches)
open Quickly.TransposeTrip (whole)
open Quickly.Rel2abs (Lab Id)
open Quickly.Rel2abs.Spec (OneLang OneLangL)
open Quickly.Abs2rel (Doc notes notesL make edit editL Rng)
open Quickly.Abs2rel.Spec (toDoc toDocs Still StillL)
open Quickly.TransposeRel.Spec (Music MusicL Fair FairL Alike AlikeL)

/-! ## Notes -/

/-- What is remembered when music is made relative, when the transposed music is, and when the relative music is transposed. -/
structure Joint (c : Ctx) (s s2 : RelState) (last : Last) : Prop where
  pitch : last.pitch = s.last.getD (firstPitch c.firstAbs)
  prev : last.prev = s2.last.getD (firstPitch c.firstAbs)
  start : s.start = none
  start2 : s2.start = none

/-- The settings: no start pitch. -/
def plainly (c : Ctx) : Settings := ⟨false, c.firstAbs⟩

theorem relNote_form (c : Ctx) (s : RelState) (n : Note) (hs : s.start = none) : relNote c.pp (plainly c) s n = match (c.pp n.lang).readNode n.node with
    | .error e => .error e
    | .ok p => match (c.pp n.lang).writeNode n.node (p.makeRelative (s.last.getD (firstPitch c.firstAbs)) (p.octave - n.node.octave) 7) with
      | .error e => .error e
      | .ok nd => .ok (⟨some p, none⟩, { n with node := nd }) := by
  unfold relNote
  cases (c.pp n.lang).readNode n.node with
  | error e => rfl
  | ok p =>
    simp only
    cases h : s.last with
    | none => simp only [getFirstPitch, plainly, Bool.false_eq_true, if_false, Option.getD_none]; rfl
    | some a => simp only [Option.getD_some, hs]; rfl

theorem relNote_keeps {c : Ctx} {s s' : RelState} {n n1 : Note} (hs : s.start = none) (h : relNote c.pp (plainly c) s n = .ok (s', n1)) : n1 = { n with node := n1.node } := by
  rw [relNote_form c s n hs] at h
  split at h
  · cases h
  · split at h
    · cases h
    · cases h; rfl

theorem transposeAbs_keeps {c : Ctx} {o : ℤ} {n n2 : Note} (h : transposeAbs c o n = .ok n2) : n2 = { n with node := n2.node } := by
  unfold transposeAbs at h
  split at h
  · cases h; rfl
  · cases h

theorem note_comm {c : Ctx} (g : Good c) (s s' s2 : RelState) (last : Last) (n n1 n2 : Note) (hw : n.writable = true) (hc : n.check = none) (hj : Joint c s s2 last)
    (h1 : relNote c.pp (plainly c) s n = .ok (s', n1)) (h2 : transposeAbs c 0 n = .ok n2) :
    ∃ s2' last' n3, relNote c.pp (plainly c) s2 n2 = .ok (s2', n3) ∧ transposeNote c n1 last = .ok (last', n3) ∧ Joint c s' s2' last' := by
  rw [relNote_form c s n hj.start] at h1
  split at h1
  · cases h1
  · rename_i p hp
    split at h1
    · cases h1
    · rename_i nd1 e1
      cases h1
      unfold transposeAbs Processor.process at h2
      simp only [hp, hw, if_true] at h2
      split at h2
      · rename_i nd2 e2
        cases h2
        obtain ⟨d, hdd⟩ := g.one n.lang
        have o1 : p.octave - n.node.octave = d := hdd _ ((readNode_iff _ (g.dict _) _ _).1 hp)
        have hz : down 0 (c.tr p) = c.tr p := by unfold down; rw [Int.sub_zero]
        rw [hz] at e2
        rw [o1] at e1
        have r1 := C16_write_read _ (g.dict _) _ _ _ e1
        have r2 := C16_write_read _ (g.dict _) _ _ _ e2
        have o3 := hdd _ ((readNode_iff _ (g.dict _) _ _).1 r1)
        have o4 := hdd _ ((readNode_iff _ (g.dict _) _ _).1 r2)
        simp only at o3 o4
        obtain ⟨nd3, w2, w1⟩ := write_after (c.pp n.lang) (g.dict _) (g.one _) n.node nd1 nd2 p (p.makeRelative (s.last.getD (firstPitch c.firstAbs)) d 7) (c.tr p)
          ((c.tr p).makeRelative (s2.last.getD (firstPitch c.firstAbs)) d 7) hp rfl rfl e1 e2 rfl rfl
        have ea : (p.makeRelative (s.last.getD (firstPitch c.firstAbs)) d 7).makeAbsolute last.pitch d 7 = p := by
          rw [hj.pitch]
          obtain ⟨a, b, e⟩ := p
          simp only [Pitch.makeAbsolute, Pitch.makeRelative, Pitch.mk.injEq, and_true]
          ring
        refine ⟨⟨some (c.tr p), none⟩, ⟨p, some (c.tr p)⟩, { n with node := nd3 }, ?_, ?_, ⟨rfl, rfl, rfl, rfl⟩⟩
        · rw [relNote_form c s2 _ hj.start2]
          simp only [r2, o4, w2, hw]
        · unfold transposeNote
          simp only [r1, hw, Bool.not_true, Bool.false_eq_true, if_false, hc, o3, ea, hj.prev, w1]
      · cases h2

/-! ## Trees -/

/-- The tree `d2`, if it is alike and not another node. -/
theorem alike_node {l : Abs2rel.Lab} {ks : List Doc} {d2 : Doc} {i : Id} {gs : List Rel2abs.Doc} (ha : Alike (.node l ks) d2)
    (h : toDoc d2 = .node i (Abs2rel.Spec.Lab.plain l) gs) : ∃ ks2, d2 = .node l ks2 ∧ toDocs ks2 = gs ∧ AlikeL ks ks2 := by
  obtain ⟨l2, ks2⟩ := d2
  rw [Alike] at ha
  rw [toDoc] at h
  simp only [Rel2abs.Doc.node.injEq] at h
  refine ⟨ks2, ?_, h.2.2, ha.2⟩
  congr 1
  cases l with
  | list => exact ha.1.1 rfl
  | lab l =>
    cases l2 with
    | list => exact absurd (ha.1.2 rfl) (by simp)
    | lab l2 => simpa [Abs2rel.Spec.Lab.plain] using h.2.1

theorem alike_note {p : Bool} {nd nd2 : PNode} {chk chk2 : Option ℤ} {ks : List Doc} {d2 : Doc} {i : Id} {gs : List Rel2abs.Doc}
    (ha : Alike (.node (.lab (.note p nd chk)) ks) d2) (h : toDoc d2 = .node i (.note p nd2 chk2) gs) :
    ∃ ks2, d2 = .node (.lab (.note p nd2 chk2)) ks2 ∧ toDocs ks2 = gs ∧ AlikeL ks ks2 := by
  obtain ⟨l2, ks2⟩ := d2
  rw [Alike] at ha
  rw [toDoc] at h
  simp only [Rel2abs.Doc.node.injEq] at h
  refine ⟨ks2, ?_, h.2.2, ha.2⟩
  congr 1
  cases l2 with
  | list => exact absurd (ha.1.2 rfl) (by simp)
  | lab l2 => simpa [Abs2rel.Spec.Lab.plain] using h.2.1

theorem alikeL_nil {ks2 : List Doc} (h : AlikeL [] ks2) : ks2 = [] := by
  cases ks2 with
  | nil => rfl
  | cons k ks => simp [AlikeL] at h

theorem alikeL_cons {k : Doc} {ks ks2 : List Doc} (h : AlikeL (k :: ks) ks2) : ∃ g gs, ks2 = g :: gs ∧ Alike k g ∧ AlikeL ks gs := by
  cases ks2 with
  | nil => simp [AlikeL] at h
  | cons g gs => rw [AlikeL] at h; exact ⟨g, gs, rfl, h⟩

/-- Nodes whose children are transposed like themselves. -/
def Same (l : Lab) : Prop := l = .other ∨ l = .comment ∨ l = .chordmode

theorem visit_same (c : Ctx) (rm : Bool) (s : Sink) (L : Str) (i : Id) (l : Lab) (ks : List Rel2abs.Doc) (hl : Same l) :
    visit c whole rm s L (.node i l ks) = match list c whole rm 0 s L ks with
      | .error e => .error e
      | .ok (s, L, ks) => .ok (s, L, .node i l ks) := by
  rcases hl with rfl | rfl | rfl <;> (rw [visit] <;> try simp) <;> (cases list c whole rm 0 s L ks <;> rfl)

theorem notes_same (pp : Langs) (st : Settings) (s : RelState) (L : Str) (l : Abs2rel.Lab) (ks : List Doc) (hl : Same (Abs2rel.Spec.Lab.plain l)) :
    notes pp st s L (.node l ks) = match notesL pp st s L ks with
      | .error e => .error e
      | .ok (s, L, ks) => .ok (s, L, .node l ks) := by
  cases l with
  | list => (rw [notes] <;> try simp) <;> (cases notesL pp st s L ks <;> rfl)
  | lab l => rcases hl with h | h | h <;> (simp only [Abs2rel.Spec.Lab.plain] at h; subst h; rw [notes] <;> try simp) <;> (cases notesL pp st s L ks <;> rfl)

theorem music_same {l : Abs2rel.Lab} {ks : List Doc} (hl : Same (Abs2rel.Spec.Lab.plain l)) : Music (.node l ks) ↔ MusicL ks := by
  cases l with
  | list => rw [Music] <;> simp
  | lab l => rcases hl with h | h | h <;> (simp only [Abs2rel.Spec.Lab.plain] at h; subst h; rw [Music] <;> simp)

/-! ## Music that is made relative -/

mutual
theorem notes_comm {c : Ctx} (g : Good c) (L : Str) : ∀ (d d1 d2 : Doc) (s s' s2 : RelState) (last : Last) (S : Sink) (L1 L2 : Str), Music d → OneLang L (toDoc d) → Alike d d2 →
    Joint c s s2 last → notes c.pp (plainly c) s L d = .ok (s', L1, d1) → visit c whole false (.pitches 0) L (toDoc d) = .ok (S, L2, toDoc d2) →
    L1 = L ∧ ∃ s2' d3 last', notes c.pp (plainly c) s2 L d2 = .ok (s2', L, d3) ∧
      visit c whole true (.relative last) L (toDoc d1) = .ok (.relative last', L, toDoc d3) ∧ Joint c s' s2' last'
  | .node l ks, d1, d2, s, s', s2, last, S, L1, L2, hm, ho, ha, hj, h1, h2 => by
    have ho' : OneLangL L (toDocs ks) := by rw [toDoc, OneLang] at ho; exact ho.2
    have rest : Same (Abs2rel.Spec.Lab.plain l) → L1 = L ∧ ∃ s2' d3 last', notes c.pp (plainly c) s2 L d2 = .ok (s2', L, d3) ∧
        visit c whole true (.relative last) L (toDoc d1) = .ok (.relative last', L, toDoc d3) ∧ Joint c s' s2' last' := by
      intro hl
      rw [notes_same _ _ _ _ _ _ hl] at h1
      rw [toDoc, visit_same _ _ _ _ _ _ _ hl] at h2
      split at h1
      · cases h1
      · rename_i sx Lx ksx e1
        cases h1
        split at h2
        · cases h2
        · rename_i Sx Ly gs e2
          simp only [Except.ok.injEq, Prod.mk.injEq] at h2
          obtain ⟨rfl, rfl, h2⟩ := h2
          obtain ⟨ks2, rfl, rfl, ha'⟩ := alike_node ha h2.symm
          obtain ⟨rfl, s2', ks3, last', x1, x2, x3⟩ := notesL_comm g L ks _ ks2 s s' s2 last _ _ _ ((music_same hl).1 hm) ho' ha' hj e1 e2
          refine ⟨rfl, s2', .node l ks3, last', ?_, ?_, x3⟩
          · rw [notes_same _ _ _ _ _ _ hl, x1]
          · rw [toDoc, visit_same _ _ _ _ _ _ _ hl, x2, toDoc]
    cases l with
    | list => exact rest (.inl rfl)
    | lab l =>
      cases l with
      | other => exact rest (.inl rfl)
      | comment => exact rest (.inr (.inl rfl))
      | chordmode => exact rest (.inr (.inr rfl))
      | chord => simp [Music] at hm
      | check => simp [Music] at hm
      | relative => simp [Music] at hm
      | note p nd chk =>
        rw [Music] at hm
        subst hm
        rw [notes] at h1
        simp only [toDoc, Abs2rel.Spec.Lab.plain] at h2
        rw [visit] at h2
        split at h1
        · cases h1
        · rename_i sx n1 e1
          cases h1
          simp only [consume] at h2
          split at h2
          · cases h2
          · rename_i Sx n2 e2
            split at e2
            · cases e2
            · rename_i n2' e3
              cases e2
              split at h2
              · cases h2
              · rename_i Sy Ly gs e4
                simp only [Except.ok.injEq, Prod.mk.injEq] at h2
                obtain ⟨rfl, rfl, h2⟩ := h2
                have hL := list_lang _ _ _ _ _ _ _ _ _ _ ho' e4
                subst hL
                obtain ⟨ks2, rfl, rfl, -⟩ := alike_note ha h2.symm
                obtain ⟨s2', last', n3, x1, x2, x3⟩ := note_comm g s s' s2 last _ n1 n2 rfl rfl hj e1 e3
                have k1 := relNote_keeps hj.start e1
                have k2 := transposeAbs_keeps e3
                have k3 := relNote_keeps hj.start2 x1
                obtain ⟨m1, c1, wr1, l1⟩ := n1
                obtain ⟨m2, c2, wr2, l2⟩ := n2
                obtain ⟨m3, c3, wr3, l3⟩ := n3
                simp only [Note.mk.injEq, true_and] at k1 k2 k3
                obtain ⟨rfl, rfl, rfl⟩ := k1
                obtain ⟨rfl, rfl, rfl⟩ := k2
                obtain ⟨rfl, rfl, rfl⟩ := k3
                refine ⟨rfl, s2', .node (.lab (.note p m3 none)) ks2, last', ?_, ?_, x3⟩
                · simp only [whole] at x1
                  rw [notes, x1]
                · simp only [toDoc, Abs2rel.Spec.Lab.plain]
                  rw [visit]
                  simp only [consume, whole] at x2 ⊢
                  rw [x2]
                  simp only
                  rw [e4]
                  rfl
      | skip k =>
        rw [notes] at h1
        cases h1
        have key : ∀ t, visit c whole false (.pitches 0) L (toDoc (.node (.lab (.skip k)) ks)) = .ok (S, L2, t) → k ≠ .transpose →
            visit c whole true (.relative last) L (toDoc (.node (.lab (.skip k)) ks)) = .ok (.relative last, L2, t) := by
          intro t ht hk
          simp only [toDoc, Abs2rel.Spec.Lab.plain] at ht ⊢
          cases k with
          | transpose => exact absurd rfl hk
          | silent => rw [visit] at ht ⊢; cases ht; rfl
          | _ =>
            rw [visit] at ht ⊢
            split at ht
            · cases ht
            · rename_i e; cases ht; rfl
        have hk : k ≠ .transpose := by
          rintro rfl
          simp [Music] at hm
        have hL := visit_lang _ _ _ _ _ _ _ _ _ ho h2
        subst hL
        obtain ⟨l2, ks2⟩ := d2
        have hd2 : l2 = .lab (.skip k) := by
          have hs := TransposeDoc.visit_same _ _ _ _ _ _ _ _ _ h2
          rw [toDoc, toDoc, TransposeDoc.Spec.Same] at hs
          obtain ⟨-, hs | ⟨-, p, nd, chk, nd', chk', hs, -⟩, -⟩ := hs
          · cases l2 with
            | list => simp [Abs2rel.Spec.Lab.plain] at hs
            | lab l2 => simp only [Abs2rel.Spec.Lab.plain] at hs; rw [hs]
          · simp [Abs2rel.Spec.Lab.plain] at hs
        subst hd2
        exact ⟨rfl, s2, .node (.lab (.skip k)) ks2, last, by rw [notes], key _ h2 hk, hj⟩
      | language l' =>
        rw [notes] at h1
        cases h1
        simp only [toDoc, Abs2rel.Spec.Lab.plain] at h2 ho
        rw [OneLang] at ho
        obtain rfl := ho.1 _ rfl
        rw [visit] at h2
        simp only [Except.ok.injEq, Prod.mk.injEq] at h2
        obtain ⟨-, -, h2⟩ := h2
        obtain ⟨ks2, rfl, h3, -⟩ := alike_node ha h2.symm
        refine ⟨rfl, s2, Doc.node (.lab (.language L1)) ks2, last, by rw [notes], ?_, hj⟩
        simp only [toDoc, Abs2rel.Spec.Lab.plain]
        rw [visit, h3]
theorem notesL_comm {c : Ctx} (g : Good c) (L : Str) : ∀ (ks ks1 ks2 : List Doc) (s s' s2 : RelState) (last : Last) (S : Sink) (L1 L2 : Str), MusicL ks → OneLangL L (toDocs ks) →
    AlikeL ks ks2 → Joint c s s2 last → notesL c.pp (plainly c) s L ks = .ok (s', L1, ks1) → list c whole false 0 (.pitches 0) L (toDocs ks) = .ok (S, L2, toDocs ks2) →
    L1 = L ∧ ∃ s2' ks3 last', notesL c.pp (plainly c) s2 L ks2 = .ok (s2', L, ks3) ∧
      list c whole true 0 (.relative last) L (toDocs ks1) = .ok (.relative last', L, toDocs ks3) ∧ Joint c s' s2' last'
  | [], ks1, ks2, s, s', s2, last, S, L1, L2, hm, ho, ha, hj, h1, h2 => by
    rw [alikeL_nil ha]
    rw [notesL] at h1
    cases h1
    exact ⟨rfl, s2, [], last, by rw [notesL], by rw [toDocs, list], hj⟩
  | k :: ks, ks1, ks2, s, s', s2, last, S, L1, L2, hm, ho, ha, hj, h1, h2 => by
    obtain ⟨k2, gs, rfl, a1, a2⟩ := alikeL_cons ha
    rw [MusicL] at hm
    rw [toDocs, OneLangL] at ho
    rw [notesL] at h1
    rw [toDocs, toDocs, list] at h2
    split at h1
    · cases h1
    · rename_i sx Lx kx e1
      split at h1
      · cases h1
      · rename_i sy Ly ky e2
        cases h1
        split at h2
        · cases h2
        · rename_i Sx Lz kz e3
          split at h2
          · cases h2
          · rename_i Sy Lw kw e4
            simp only [Except.ok.injEq, Prod.mk.injEq, List.cons.injEq] at h2
            obtain ⟨rfl, rfl, rfl, rfl⟩ := h2
            obtain rfl := visit_pitches _ _ _ _ _ _ _ _ _ e3
            obtain rfl := visit_lang _ _ _ _ _ _ _ _ _ ho.1 e3
            obtain ⟨rfl, s2', k3, last1, x1, x2, x3⟩ := notes_comm g _ k _ _ _ _ _ _ _ _ _ hm.1 ho.1 a1 hj e1 e3
            obtain ⟨rfl, s2'', ks3, last2, y1, y2, y3⟩ := notesL_comm g _ ks _ _ _ _ _ _ _ _ _ hm.2 ho.2 a2 x3 e2 e4
            refine ⟨rfl, s2'', k3 :: ks3, last2, ?_, ?_, y3⟩
            · rw [notesL, x1]; simp only; rw [y1]
            · rw [toDocs, list, x2]; simp only; rw [y2, toDocs]
end

/-! ## The document -/

/-- The same places, for a document and what becomes of it. -/
def Twin (d d2 : Doc) : Prop := Alike d d2 ∧ TransposeDoc.Spec.Same whole (toDoc d) (toDoc d2)

/-- The same for lists. -/
def TwinL (ks ks2 : List Doc) : Prop := AlikeL ks ks2 ∧ TransposeDoc.Spec.SameL whole (toDocs ks) (toDocs ks2)

theorem twin_node {l : Abs2rel.Lab} {ks : List Doc} {d2 : Doc} (h : Twin (.node l ks) d2) : ∃ l2 ks2, d2 = .node l2 ks2 ∧ TwinL ks ks2 ∧
    (l2 = l ∨ ∃ p nd chk nd' chk', l = .lab (.note p nd chk) ∧ l2 = .lab (.note p nd' chk')) := by
  obtain ⟨l2, ks2⟩ := d2
  obtain ⟨ha, hs⟩ := h
  rw [toDoc, toDoc, TransposeDoc.Spec.Same] at hs
  rw [Alike] at ha
  refine ⟨l2, ks2, rfl, ⟨ha.2, hs.2.2⟩, ?_⟩
  obtain ⟨-, hs, -⟩ := hs
  cases l with
  | list => obtain rfl := ha.1.1 rfl; exact .inl rfl
  | lab l =>
    cases l2 with
    | list => exact absurd (ha.1.2 rfl) (by simp)
    | lab l2 =>
      simp only [Abs2rel.Spec.Lab.plain] at hs
      rcases hs with rfl | ⟨-, p, nd, chk, nd', chk', rfl, rfl, -⟩
      · exact .inl rfl
      · exact .inr ⟨p, nd, chk, nd', chk', rfl, rfl⟩

theorem twinL_nil {ks2 : List Doc} (h : TwinL [] ks2) : ks2 = [] := alikeL_nil h.1

theorem twinL_cons {k : Doc} {ks ks2 : List Doc} (h : TwinL (k :: ks) ks2) : ∃ g gs, ks2 = g :: gs ∧ Twin k g ∧ TwinL ks gs := by
  obtain ⟨g, gs, rfl, a1, a2⟩ := alikeL_cons h.1
  have := h.2
  rw [toDocs, toDocs, TransposeDoc.Spec.SameL] at this
  exact ⟨g, gs, rfl, ⟨a1, this.1⟩, a2, this.2⟩

theorem twin_isNote {k k2 : Doc} (h : Twin k k2) : k2.isNote = k.isNote := by
  obtain ⟨l, ks⟩ := k
  obtain ⟨l2, ks2, rfl, -, rfl | ⟨p, nd, chk, nd', chk', rfl, rfl⟩⟩ := twin_node h <;> rfl

theorem twinL_any : ∀ {ks ks2 : List Doc}, TwinL ks ks2 → ks2.any Doc.isNote = ks.any Doc.isNote
  | [], ks2, h => by rw [twinL_nil h]
  | k :: ks, ks2, h => by
    obtain ⟨g, gs, rfl, a, b⟩ := twinL_cons h
    rw [List.any_cons, List.any_cons, twin_isNote a, twinL_any b]

theorem twinL_length : ∀ {ks ks2 : List Doc}, TwinL ks ks2 → ks2.length = ks.length
  | [], ks2, h => by rw [twinL_nil h]
  | k :: ks, ks2, h => by
    obtain ⟨g, gs, rfl, a, b⟩ := twinL_cons h
    rw [List.length_cons, List.length_cons, twinL_length b]

theorem any_false {ks : List Doc} : (∀ k ∈ ks, k.isNote = false) ↔ ks.any Doc.isNote = false := by
  rw [List.any_eq_false]
  simp

mutual
theorem twin_still : ∀ {d d2 : Doc}, Twin d d2 → Still d → Still d2
  | .node l ks, d2, h, hs => by
    obtain ⟨l2, ks2, rfl, a, b⟩ := twin_node h
    have go : StillL ks → StillL ks2 := twinL_still a
    rcases b with rfl | ⟨p, nd, chk, nd', chk', rfl, rfl⟩
    · cases l2 with
      | list =>
        rw [Still] at hs ⊢
        exact ⟨any_false.2 (by rw [twinL_any a]; exact any_false.1 hs.1), go hs.2⟩
      | lab l =>
        cases l with
        | chordmode => simp [Still] at hs
        | relative => simp [Still]
        | _ => rw [Still] at hs ⊢ <;> first | exact go hs | simp
    · rw [Still] at hs ⊢ <;> first | exact go hs | simp
theorem twinL_still : ∀ {ks ks2 : List Doc}, TwinL ks ks2 → StillL ks → StillL ks2
  | [], ks2, h, hs => by rw [twinL_nil h]; exact hs
  | k :: ks, ks2, h, hs => by
    obtain ⟨g, gs, rfl, a, b⟩ := twinL_cons h
    rw [StillL] at hs ⊢
    exact ⟨twin_still a hs.1, twinL_still b hs.2⟩
end

theorem make_comm {c : Ctx} (g : Good c) (L L1 L2 : Str) (l : Abs2rel.Lab) (ks ks2 : List Doc) (d1 : Doc) (S : Sink) (hl : l = .list ∨ l = .lab .chordmode) (hm : MusicL ks)
    (ho : OneLangL L (toDocs ks)) (ha : AlikeL ks ks2) (h1 : make c.pp (plainly c) L (.node l ks) = .ok (L1, d1))
    (h2 : list c whole false 0 (.pitches 0) L (toDocs ks) = .ok (S, L2, toDocs ks2)) :
    L1 = L ∧ ∃ d3, make c.pp (plainly c) L (.node l ks2) = .ok (L, d3) ∧ visit c whole false (.pitches 0) L (toDoc d1) = .ok (.pitches 0, L, toDoc d3) := by
  rw [make] at h1
  split at h1
  · cases h1
  · rename_i s L1' ks1 e1
    cases h1
    obtain ⟨rfl, s2, ks3, last, x1, x2, x3⟩ := notesL_comm g L ks ks1 ks2 {} s {} ⟨firstPitch c.firstAbs, none⟩ S _ L2 hm ho ha ⟨rfl, rfl, rfl, rfl⟩ e1 h2
    refine ⟨rfl, .node (.lab .relative) [.node l ks3], ?_, ?_⟩
    · rw [make, x1]
      simp only [x3.start2]
      rfl
    · rw [x3.start]
      have hl' : Same (Abs2rel.Spec.Lab.plain l) := by rcases hl with rfl | rfl; exact .inl rfl; exact .inr (.inr rfl)
      have hc : ¬ (Rel2abs.Doc.node 0 (Abs2rel.Spec.Lab.plain l) (toDocs ks1)).lab = .comment := by
        rcases hl with rfl | rfl <;> simp [Abs2rel.Spec.Lab.plain, Rel2abs.Doc.lab]
      have hf : ∀ t, first c whole none L1 (.node 0 (Abs2rel.Spec.Lab.plain l) t) = .ok none := by rcases hl with rfl | rfl <;> (intro t; rfl)
      simp only [Option.toList_none, List.map_nil, List.nil_append, toDoc, toDocs]
      rw [show Abs2rel.Spec.Lab.plain (.lab .relative) = .relative from rfl, visit, if_neg, skip]
      · rw [if_neg hc, hf]
        simp only
        rw [visit_same _ _ _ _ _ _ _ hl', x2]
        simp only
        rw [skip]
      · have := List.length_filter_le (fun k => decide (k.lab ≠ Lab.comment)) [Rel2abs.Doc.node 0 (Abs2rel.Spec.Lab.plain l) (toDocs ks1)]
        simp only [List.length_singleton] at this
        omega

theorem edit_open (pp : Langs) (st : Settings) (L : Str) (l : Lab) (ks : List Doc) (h1 : l ≠ .relative) (h2 : l ≠ .chordmode) :
    edit pp st {} true L (.node (.lab l) ks) = match editL pp st {} ks.length 0 L ks with
      | .error e => .error e
      | .ok (L, ks) => .ok (L, .node (.lab l) ks) := by
  rw [edit]
  · cases editL pp st {} ks.length 0 L ks <;> rfl
  all_goals simp [h1, h2]

theorem visit_open (c : Ctx) (L : Str) (i : Id) (l : Lab) (ks : List Rel2abs.Doc) (hl : Same l ∨ l = .chord ∨ l = .check ∨ l = .skip .absolute) :
    visit c whole false (.pitches 0) L (.node i l ks) = match list c whole false 0 (.pitches 0) L ks with
      | .error e => .error e
      | .ok (_, L, ks) => .ok (.pitches 0, L, .node i l ks) := by
  have hp := list_pitches c whole 0 ks false 0
  rcases hl with hl | rfl | rfl | rfl
  · rw [visit_same _ _ _ _ _ _ _ hl]
    cases e : list c whole false 0 (.pitches 0) L ks with
    | error e => rfl
    | ok x => obtain ⟨s, L', ks'⟩ := x; rw [hp _ _ _ _ e]
  · rw [visit]
    simp only [TransposeDoc.relLast]
    cases e : list c whole false 0 (.pitches 0) L ks with
    | error e => rfl
    | ok x => obtain ⟨s, L', ks'⟩ := x; rw [hp _ _ _ _ e]
  · rw [visit]
    simp only [TransposeDoc.relLast]
    cases e : list c whole false 0 (.pitches 0) L ks with
    | error e => rfl
    | ok x => obtain ⟨s, L', ks'⟩ := x; rw [hp _ _ _ _ e]
  · rw [visit]
    cases list c whole false 0 (.pitches 0) L ks <;> rfl

mutual
theorem edit_comm {c : Ctx} (g : Good c) (L : Str) : ∀ (d d1 d2 : Doc) (S : Sink) (L1 L2 : Str), Fair d → OneLang L (toDoc d) → Twin d d2 →
    edit c.pp (plainly c) {} true L d = .ok (L1, d1) → visit c whole false (.pitches 0) L (toDoc d) = .ok (S, L2, toDoc d2) →
    L1 = L ∧ ∃ d3, edit c.pp (plainly c) {} true L d2 = .ok (L, d3) ∧ visit c whole false (.pitches 0) L (toDoc d1) = .ok (.pitches 0, L, toDoc d3)
  | .node l ks, d1, d2, S, L1, L2, hf, ho, ht, h1, h2 => by
    have ho' : OneLangL L (toDocs ks) := by rw [toDoc, OneLang] at ho; exact ho.2
    have hS := visit_pitches _ _ _ _ _ _ _ _ _ h2
    have hL := visit_lang _ _ _ _ _ _ _ _ _ ho h2
    subst hS hL
    -- nothing to convert
    have quiet : Still (.node l ks) → L1 = L2 ∧ ∃ d3, edit c.pp (plainly c) {} true L2 d2 = .ok (L2, d3) ∧
        visit c whole false (.pitches 0) L2 (toDoc d1) = .ok (.pitches 0, L2, toDoc d3) := by
      intro hs
      rw [Abs2rel.edit_still _ _ _ _ _ _ hs] at h1
      cases h1
      exact ⟨rfl, d2, Abs2rel.edit_still _ _ _ _ _ _ (twin_still ht hs), h2⟩
    have kids : ∀ (n : ℕ) (ks1 ks2 : List Doc) (L1 : Str), FairL ks → (∀ k ∈ ks.take n, Still k) → TwinL ks ks2 →
        editL c.pp (plainly c) {} ks.length 0 L2 ks = .ok (L1, ks1) → list c whole false n (.pitches 0) L2 (toDocs ks) = .ok (.pitches 0, L2, toDocs ks2) →
        L1 = L2 ∧ ∃ ks3, editL c.pp (plainly c) {} ks2.length 0 L2 ks2 = .ok (L2, ks3) ∧
          list c whole false n (.pitches 0) L2 (toDocs ks1) = .ok (.pitches 0, L2, toDocs ks3) := by
      intro n ks1 ks2 L1 hf hn ht h1 h2
      have hlen : ks2.length = ks.length := twinL_length ht
      rw [hlen]
      exact editL_comm g L2 ks ks1 ks2 ks.length 0 n L1 hf hn ho' ht (by omega) h1 h2
    obtain ⟨l2, ks2, rfl, tk, tl⟩ := twin_node ht
    -- the children are converted
    have inside : ∀ l0, l = .lab l0 → (Same l0 ∨ l0 = .chord ∨ l0 = .check ∨ l0 = .skip .absolute) → l0 ≠ .chordmode → FairL ks →
        L1 = L2 ∧ ∃ d3, edit c.pp (plainly c) {} true L2 (.node l2 ks2) = .ok (L2, d3) ∧ visit c whole false (.pitches 0) L2 (toDoc d1) = .ok (.pitches 0, L2, toDoc d3) := by
      rintro l0 rfl hl hcm hk
      have hr : l0 ≠ .relative := by rintro rfl; simp [Same] at hl
      obtain rfl : l2 = .lab l0 := by
        rcases tl with rfl | ⟨p, nd, chk, nd', chk', h, -⟩
        · rfl
        · cases h; simp [Same] at hl
      rw [edit_open _ _ _ _ _ hr hcm] at h1
      simp only [toDoc, Abs2rel.Spec.Lab.plain] at h2
      rw [visit_open _ _ _ _ _ hl] at h2
      split at h1
      · cases h1
      · rename_i Lx ks1 e1
        cases h1
        split at h2
        · cases h2
        · rename_i Sx Ly gs e2
          simp only [Except.ok.injEq, Prod.mk.injEq, Rel2abs.Doc.node.injEq, true_and] at h2
          obtain ⟨rfl, rfl⟩ := h2
          obtain rfl := list_pitches _ _ _ _ _ _ _ _ _ _ e2
          obtain ⟨rfl, ks3, x1, x2⟩ := kids 0 ks1 ks2 _ hk (by simp) tk e1 e2
          refine ⟨rfl, .node (.lab l0) ks3, ?_, ?_⟩
          · rw [edit_open _ _ _ _ _ hr hcm, x1]
          · simp only [toDoc, Abs2rel.Spec.Lab.plain]
            rw [visit_open _ _ _ _ _ hl, x2]
    have made : (l = .list ∨ l = .lab .chordmode) → MusicL ks → make c.pp (plainly c) L2 (.node l ks) = .ok (L1, d1) → L1 = L2 ∧ l2 = l ∧
        ∃ d3, make c.pp (plainly c) L2 (.node l ks2) = .ok (L2, d3) ∧ visit c whole false (.pitches 0) L2 (toDoc d1) = .ok (.pitches 0, L2, toDoc d3) := by
      intro hl hm h1
      have hl' : Same (Abs2rel.Spec.Lab.plain l) := by rcases hl with rfl | rfl; exact .inl rfl; exact .inr (.inr rfl)
      obtain rfl : l2 = l := by
        rcases tl with rfl | ⟨p, nd, chk, nd', chk', rfl, -⟩
        · rfl
        · simp at hl
      simp only [toDoc] at h2
      rw [visit_same _ _ _ _ _ _ _ hl'] at h2
      split at h2
      · cases h2
      · rename_i Sx Ly gs e2
        simp only [Except.ok.injEq, Prod.mk.injEq, Rel2abs.Doc.node.injEq, true_and] at h2
        obtain ⟨rfl, rfl, rfl⟩ := h2
        obtain ⟨a, d3, x1, x2⟩ := make_comm g _ _ _ _ ks ks2 d1 _ hl hm ho' tk.1 h1 e2
        exact ⟨a, rfl, d3, x1, x2⟩
    cases l with
    | list =>
      rw [Fair] at hf
      have hll : l2 = .list := by
        rcases tl with rfl | ⟨p, nd, chk, nd', chk', h, -⟩
        · rfl
        · cases h
      subst hll
      rw [edit] at h1
      rw [edit, twinL_any tk]
      split at h1
      · rename_i hn
        rw [if_pos hn]
        simp only [Bool.and_true, List.any_eq_true] at hn
        obtain ⟨a, -, d3, x1, x2⟩ := made (.inl rfl) (hf.1 hn) h1
        exact ⟨a, d3, x1, x2⟩
      · rename_i hn
        rw [if_neg hn]
        simp only [Bool.and_true, Bool.not_eq_true] at hn
        simp only [toDoc, Abs2rel.Spec.Lab.plain] at h2
        rw [visit_open _ _ _ _ _ (.inl (.inl rfl))] at h2
        split at h1
        · cases h1
        · rename_i Lx ks1 e1
          cases h1
          split at h2
          · cases h2
          · rename_i Sx Ly gs e2
            simp only [Except.ok.injEq, Prod.mk.injEq, Rel2abs.Doc.node.injEq, true_and] at h2
            obtain ⟨rfl, rfl⟩ := h2
            obtain rfl := list_pitches _ _ _ _ _ _ _ _ _ _ e2
            obtain ⟨rfl, ks3, x1, x2⟩ := kids 0 ks1 ks2 _ (hf.2 (any_false.2 hn)) (by simp) tk e1 e2
            refine ⟨rfl, .node .list ks3, ?_, ?_⟩
            · rw [x1]
            · simp only [toDoc, Abs2rel.Spec.Lab.plain]
              rw [visit_open _ _ _ _ _ (.inl (.inl rfl)), x2]
    | lab l =>
      cases l with
      | relative =>
        have hll : l2 = .lab .relative := by
          rcases tl with rfl | ⟨p, nd, chk, nd', chk', h, -⟩
          · rfl
          · cases h
        subst hll
        rw [edit] at h1
        cases h1
        exact ⟨rfl, _, by rw [edit], h2⟩
      | chordmode =>
        rw [Fair] at hf
        rw [edit] at h1
        obtain ⟨a, rfl, d3, x1, x2⟩ := made (.inr rfl) hf h1
        exact ⟨a, d3, by rw [edit]; exact x1, x2⟩
      | language l' => rw [Fair] at hf; exact quiet (by rw [Still] <;> first | exact hf | simp)
      | other => rw [Fair] at hf; exact inside _ rfl (.inl (.inl rfl)) (by simp) hf; all_goals simp
      | comment => rw [Fair] at hf; exact inside _ rfl (.inl (.inr (.inl rfl))) (by simp) hf; all_goals simp
      | chord => rw [Fair] at hf; exact inside _ rfl (.inr (.inl rfl)) (by simp) hf; all_goals simp
      | check => rw [Fair] at hf; exact inside _ rfl (.inr (.inr (.inl rfl))) (by simp) hf; all_goals simp
      | note p nd chk =>
        rw [Fair] at hf <;> try simp
        simp only [toDoc, Abs2rel.Spec.Lab.plain] at h2
        rw [edit_open _ _ _ _ _ (by simp) (by simp)] at h1
        rw [visit] at h2
        split at h1
        · cases h1
        · rename_i Lx ks1 e1
          cases h1
          split at h2
          · cases h2
          · rename_i Sx n e2
            split at h2
            · cases h2
            · rename_i Sy Ly gs e3
              simp only [Except.ok.injEq, Prod.mk.injEq] at h2
              obtain ⟨rfl, rfl, h2⟩ := h2
              obtain ⟨ks2', h4, rfl, -⟩ := alike_note ht.1 h2.symm
              cases h4
              obtain rfl := list_pitches _ _ _ _ _ _ _ _ _ _ e3
              obtain ⟨rfl, ks3, x1, x2⟩ := kids 0 ks1 ks2 _ hf (by simp) tk e1 e3
              refine ⟨rfl, .node (.lab (.note p n.node n.check)) ks3, ?_, ?_⟩
              · rw [edit_open _ _ _ _ _ (by simp) (by simp), x1]
              · simp only [toDoc, Abs2rel.Spec.Lab.plain]
                rw [visit, e2]
                simp only
                rw [x2]
                rfl
      | skip k =>
        cases k with
        | fixed => rw [Fair] at hf; exact quiet (by rw [Still] <;> first | exact hf | simp)
        | key => rw [Fair] at hf; exact quiet (by rw [Still] <;> first | exact hf | simp)
        | silent => rw [Fair] at hf; exact quiet (by rw [Still] <;> first | exact hf | simp)
        | absolute => rw [Fair] at hf; exact inside _ rfl (.inr (.inr (.inr rfl))) (by simp) hf; all_goals simp
        | transpose =>
          rw [Fair] at hf
          have hll : l2 = .lab (.skip .transpose) := by
            rcases tl with rfl | ⟨p, nd, chk, nd', chk', h, -⟩
            · rfl
            · cases h
          subst hll
          simp only [toDoc, Abs2rel.Spec.Lab.plain] at h2
          rw [edit_open _ _ _ _ _ (by simp) (by simp)] at h1
          rw [visit] at h2
          split at h1
          · cases h1
          · rename_i Lx ks1 e1
            cases h1
            split at h2
            · cases h2
            · rename_i Sy Ly gs e3
              simp only [Except.ok.injEq, Prod.mk.injEq, Rel2abs.Doc.node.injEq, true_and] at h2
              obtain ⟨rfl, rfl, rfl⟩ := h2
              obtain ⟨rfl, ks3, x1, x2⟩ := kids 2 ks1 ks2 _ hf.2 hf.1 tk e1 e3
              refine ⟨rfl, .node (.lab (.skip .transpose)) ks3, ?_, ?_⟩
              · rw [edit_open _ _ _ _ _ (by simp) (by simp), x1]
              · simp only [toDoc, Abs2rel.Spec.Lab.plain]
                rw [visit, x2]
theorem editL_comm {c : Ctx} (g : Good c) (L : Str) : ∀ (ks ks1 ks2 : List Doc) (len i n : ℕ) (L1 : Str), FairL ks → (∀ k ∈ ks.take n, Still k) → OneLangL L (toDocs ks) →
    TwinL ks ks2 → i + ks.length = len → editL c.pp (plainly c) {} len i L ks = .ok (L1, ks1) → list c whole false n (.pitches 0) L (toDocs ks) = .ok (.pitches 0, L, toDocs ks2) →
    L1 = L ∧ ∃ ks3, editL c.pp (plainly c) {} len i L ks2 = .ok (L, ks3) ∧ list c whole false n (.pitches 0) L (toDocs ks1) = .ok (.pitches 0, L, toDocs ks3)
  | [], ks1, ks2, len, i, n, L1, _, _, _, ht, _, h1, h2 => by
    rw [twinL_nil ht]
    rw [editL] at h1
    cases h1
    exact ⟨rfl, [], by rw [editL], by rw [toDocs, list]⟩
  | k :: ks, ks1, ks2, len, i, n, L1, hf, hn, ho, ht, hlen, h1, h2 => by
    obtain ⟨k2, gs, rfl, t1, t2⟩ := twinL_cons ht
    rw [FairL] at hf
    rw [toDocs, OneLangL] at ho
    have hin : (Rng.start {} ≤ i ∧ (i : ℤ) ≤ Rng.stop {} len) := by
      simp only [List.length_cons] at hlen
      simp only [Rng.start, Rng.stop, List.head?_nil, Option.getD_none]
      omega
    rw [editL, if_pos hin, RoundTrip.whole_child, RoundTrip.whole_inRange] at h1
    rw [toDocs, toDocs] at h2
    split at h1
    · cases h1
    · rename_i Lx kx e1
      split at h1
      · cases h1
      · rename_i Ly ky e2
        cases h1
        cases n with
        | zero =>
          rw [list] at h2
          split at h2
          · cases h2
          · rename_i Sx Lz kz e3
            obtain rfl := visit_pitches _ _ _ _ _ _ _ _ _ e3
            obtain rfl := visit_lang _ _ _ _ _ _ _ _ _ ho.1 e3
            split at h2
            · cases h2
            · rename_i Sy Lw kw e4
              simp only [Except.ok.injEq, Prod.mk.injEq, List.cons.injEq] at h2
              obtain ⟨rfl, rfl, rfl, rfl⟩ := h2
              obtain ⟨rfl, k3, x1, x2⟩ := edit_comm g _ k kx k2 _ _ _ hf.1 ho.1 t1 e1 e3
              obtain ⟨rfl, ks3, y1, y2⟩ := editL_comm g _ ks ky gs len (i + 1) 0 _ hf.2 (by simp) ho.2 t2 (by simp only [List.length_cons] at hlen; omega) e2 e4
              refine ⟨rfl, k3 :: ks3, ?_, ?_⟩
              · rw [editL, if_pos hin, RoundTrip.whole_child, RoundTrip.whole_inRange, x1]; simp only; rw [y1]
              · rw [toDocs, list, x2]; simp only; rw [y2, toDocs]
        | succ n =>
          have hk : Still k := hn k (by simp)
          rw [Abs2rel.edit_still _ _ _ _ _ _ hk] at e1
          cases e1
          rw [list] at h2
          split at h2
          · cases h2
          · rename_i Sx Lz kz e3
            obtain rfl := visit_lang _ _ _ _ _ _ _ _ _ ho.1 e3
            split at h2
            · cases h2
            · rename_i Sy Lw kw e4
              simp only [Except.ok.injEq, Prod.mk.injEq, List.cons.injEq] at h2
              obtain ⟨rfl, rfl, rfl, rfl⟩ := h2
              obtain ⟨rfl, ks3, y1, y2⟩ := editL_comm g _ ks ky gs len (i + 1) n _ hf.2 (fun x hx => hn x (by simp [hx])) ho.2 t2 (by simp only [List.length_cons] at hlen; omega) e2 e4
              refine ⟨rfl, k2 :: ks3, ?_, ?_⟩
              · rw [editL, if_pos hin, RoundTrip.whole_child, RoundTrip.whole_inRange, Abs2rel.edit_still _ _ _ _ _ _ (twin_still t1 hk)]; simp only; rw [y1]
              · rw [toDocs, list, e3]; simp only; rw [y2, toDocs]
end

end Quickly.TransposeRel
