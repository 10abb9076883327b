import Verif.RoundTrip.Spec
import Verif.Abs2rel.SoundsRange
import Verif.Rel2abs.Props

/-! # A document that is converted and converted back -/

namespace Quickly.RoundTrip

open Quickly.Pitch Quickly.Relative Quickly.Abs2rel Quickly.RoundTrip.Spec
open Quickly.Abs2rel.Spec (Still StillL toDoc toDocs)
open Quickly.Rel2abs.Spec (NoRel NoRelL LastChecks LastChecksL OneLang OneLangL Nice NiceL RelOk)
open Quickly.Rel2abs (Cfg walk walkL out outL startOf bodyOf mkNote)
open Quickly.Pitch.Spec (IsDict)

/-! ## Trees without identities -/

theorem erase_node {T : Rel2abs.Doc} {l : Abs2rel.Lab} {ks : List Doc} (h : erase T = toDoc (.node l ks)) :
    ∃ i ts, T = .node i (Abs2rel.Spec.Lab.plain l) ts ∧ eraseL ts = toDocs ks := by
  obtain ⟨i, l', ts⟩ := T
  rw [erase, toDoc] at h
  simp only [Rel2abs.Doc.node.injEq, true_and] at h
  exact ⟨i, ts, by rw [h.1], h.2⟩

theorem erase_mk {i : Rel2abs.Id} {l : Abs2rel.Lab} {l' : Rel2abs.Lab} {ts : List Rel2abs.Doc} {ks : List Doc} (hl : l' = Abs2rel.Spec.Lab.plain l) (h : eraseL ts = toDocs ks) :
    erase (.node i l' ts) = toDoc (.node l ks) := by rw [erase, toDoc, h, hl]

theorem eraseL_nil {ts : List Rel2abs.Doc} (h : eraseL ts = []) : ts = [] := by
  cases ts with
  | nil => rfl
  | cons t ts => rw [eraseL] at h; cases h

theorem eraseL_cons {ts : List Rel2abs.Doc} {a : Rel2abs.Doc} {as : List Rel2abs.Doc} (h : eraseL ts = a :: as) :
    ∃ t ts', ts = t :: ts' ∧ erase t = a ∧ eraseL ts' = as := by
  cases ts with
  | nil => rw [eraseL] at h; cases h
  | cons t ts =>
    rw [eraseL] at h
    simp only [List.cons.injEq] at h
    exact ⟨t, ts, rfl, h.1, h.2⟩

theorem eraseL_append (a b : List Rel2abs.Doc) : eraseL (a ++ b) = eraseL a ++ eraseL b := by
  induction a with
  | nil => simp [eraseL]
  | cons t a ih => simp [eraseL, ih]

mutual
/-- No `\relative`, no `\octaveCheck`, and one language. -/
def Clean (L : Str) : Rel2abs.Doc → Prop
  | .node _ l ks => l ≠ .relative ∧ l ≠ .check ∧ (∀ l', l = .language l' → l' = L) ∧ CleanL L ks
/-- The same for a list. -/
def CleanL (L : Str) : List Rel2abs.Doc → Prop
  | [] => True
  | k :: ks => Clean L k ∧ CleanL L ks
end

mutual
theorem clean_parts {L : Str} : ∀ {T : Rel2abs.Doc}, Clean L T → NoRel T ∧ LastChecks T ∧ OneLang L T
  | .node i l ts, h => by
    rw [Clean] at h
    obtain ⟨a, b, c⟩ := cleanL_parts h.2.2.2
    rw [NoRel, LastChecks, OneLang]
    exact ⟨⟨h.1, a⟩, ⟨fun k hk => cleanL_check h.2.2.2 k (List.dropLast_subset _ hk), b⟩, h.2.2.1, c⟩
theorem cleanL_parts {L : Str} : ∀ {ts : List Rel2abs.Doc}, CleanL L ts → NoRelL ts ∧ LastChecksL ts ∧ OneLangL L ts
  | [], _ => by simp [NoRelL, LastChecksL, OneLangL]
  | t :: ts, h => by
    rw [CleanL] at h
    obtain ⟨a, b, c⟩ := clean_parts h.1
    obtain ⟨a', b', c'⟩ := cleanL_parts h.2
    rw [NoRelL, LastChecksL, OneLangL]
    exact ⟨⟨a, a'⟩, ⟨b, b'⟩, c, c'⟩
theorem cleanL_check {L : Str} : ∀ {ts : List Rel2abs.Doc}, CleanL L ts → ∀ t ∈ ts, t.lab ≠ .check
  | [], _, t, ht => by cases ht
  | .node i l us :: ts, h, t, ht => by
    rw [CleanL] at h
    rcases List.mem_cons.1 ht with rfl | ht
    · have := h.1
      rw [Clean] at this
      exact this.2.1
    · exact cleanL_check h.2 t ht
end

mutual
theorem clean_of {L : Str} : ∀ {d : Doc} {T : Rel2abs.Doc}, erase T = toDoc d → NoCheck d → NoRel (toDoc d) → OneLang L (toDoc d) → Clean L T
  | .node l ks, T, h, hc, hr, ho => by
    obtain ⟨i, ts, rfl, h1⟩ := erase_node h
    rw [toDoc] at hr ho
    rw [NoRel] at hr
    rw [OneLang] at ho
    rw [NoCheck] at hc
    rw [Clean]
    refine ⟨hr.1, ?_, ho.1, cleanL_of h1 hc.2 hr.2 ho.2⟩
    intro e
    cases l with
    | list => cases e
    | lab l => exact hc.1 (by rw [show l = .check from e])
theorem cleanL_of {L : Str} : ∀ {ks : List Doc} {ts : List Rel2abs.Doc}, eraseL ts = toDocs ks → NoCheckL ks → NoRelL (toDocs ks) → OneLangL L (toDocs ks) → CleanL L ts
  | [], ts, h, _, _, _ => by
    rw [toDocs] at h
    rw [eraseL_nil h, CleanL]
    trivial
  | k :: ks, ts, h, hc, hr, ho => by
    rw [toDocs] at h hr ho
    obtain ⟨t, ts, rfl, h1, h2⟩ := eraseL_cons h
    rw [NoRelL] at hr
    rw [OneLangL] at ho
    rw [NoCheckL] at hc
    rw [CleanL]
    exact ⟨clean_of h1 hc.1 hr.1 ho.1, cleanL_of h2 hc.2 hr.2 ho.2⟩
end

mutual
theorem noRel_of : ∀ {d : Doc} {T : Rel2abs.Doc}, erase T = toDoc d → NoRel (toDoc d) → NoRel T
  | .node l ks, T, h, hr => by
    obtain ⟨i, ts, rfl, h1⟩ := erase_node h
    rw [toDoc, NoRel] at hr
    rw [NoRel]
    exact ⟨hr.1, noRelL_of h1 hr.2⟩
theorem noRelL_of : ∀ {ks : List Doc} {ts : List Rel2abs.Doc}, eraseL ts = toDocs ks → NoRelL (toDocs ks) → NoRelL ts
  | [], ts, h, _ => by
    rw [toDocs] at h
    rw [eraseL_nil h, NoRelL]
    trivial
  | k :: ks, ts, h, hr => by
    rw [toDocs] at h hr
    obtain ⟨t, ts, rfl, h1, h2⟩ := eraseL_cons h
    rw [NoRelL] at hr
    rw [NoRelL]
    exact ⟨noRel_of h1 hr.1, noRelL_of h2 hr.2⟩
end

/-! ## The notes of a list -/

/-- The pitch is that of the start pitch, if there is one. -/
def StartIs (pp : Langs) (st : Settings) (L : Str) (start : Option Note) (r : Pitch) : Prop :=
  match start with
  | some n => (pp L).readNode n.node = .ok r
  | none => r = firstPitch st.firstAbs

/-- If there was a note, the first was made relative to the pitch. -/
def Good (pp : Langs) (st : Settings) (L : Str) (s : RelState) (r : Pitch) : Prop := s.last.isSome = true → StartIs pp st L s.start r

/-- What stays as it is from one note to the next. -/
structure Goes (pp : Langs) (st : Settings) (L : Str) (s s' : RelState) : Prop where
  start : s.last.isSome = true → s'.last.isSome = true ∧ s'.start = s.start
  reads : (∃ r, StartIs pp st L s.start r) → ∃ r, StartIs pp st L s'.start r

theorem Goes.refl {pp : Langs} {st : Settings} {L : Str} (s : RelState) : Goes pp st L s s := ⟨fun h => ⟨h, rfl⟩, id⟩

theorem Goes.trans {pp : Langs} {st : Settings} {L : Str} {a b c : RelState} (h : Goes pp st L a b) (h' : Goes pp st L b c) : Goes pp st L a c :=
  ⟨fun x => ⟨(h'.start (h.start x).1).1, by rw [(h'.start (h.start x).1).2, (h.start x).2]⟩, fun x => h'.reads (h.reads x)⟩

theorem Goes.good {pp : Langs} {st : Settings} {L : Str} {a b : RelState} {r : Pitch} (h : Goes pp st L a b) (g : Good pp st L b r) : Good pp st L a r := by
  intro x
  have := g (h.start x).1
  rw [(h.start x).2] at this
  exact this

/-- A note made relative, and made absolute again. -/
theorem note_back (pp : Langs) (hd : ∀ l, IsDict (pp l).table) (st : Settings) (s s' : RelState) (n n' : Note) (h : relNote pp st s n = .ok (s', n')) :
    Goes pp st n.lang s s' ∧ ∀ r, Good pp st n.lang s' r → ∃ p, s'.last = some p ∧ absNote pp n' (s.last.getD r) = .ok (p, n) := by
  unfold relNote at h
  split at h
  · cases h
  · rename_i p hp
    simp only at h
    split at h
    · cases h
    · rename_i l start hl
      split at h
      · cases h
      · rename_i nd hnd
        cases h
        have hst : (s.last.isSome = true → start = s.start) ∧ (s.last = none → StartIs pp st n.lang start l) ∧ (∀ a, s.last = some a → l = a) := by
          split at hl
          · rename_i a e
            cases hl
            rw [e]
            exact ⟨fun _ => rfl, (fun x => by cases x), (fun b hb => by cases hb; rfl)⟩
          · rename_i e
            rw [e]
            refine ⟨(fun x => by cases x), fun _ => ?_, (fun b hb => by cases hb)⟩
            unfold getFirstPitch at hl
            split at hl
            · simp only at hl
              split at hl
              · cases hl
              · rename_i nd' hnd'
                cases hl
                exact C16_pitchable _ (hd _) _ _ hnd'
            · cases hl
              rfl
        refine ⟨⟨fun x => ⟨rfl, hst.1 x⟩, fun x => ?_⟩, fun r g => ⟨p, rfl, ?_⟩⟩
        · cases e : s.last with
          | none => exact ⟨_, hst.2.1 e⟩
          | some a =>
            simp only
            rw [hst.1 (by rw [e]; rfl)]
            exact x
        · have hr : s.last.getD r = l := by
            cases e : s.last with
            | some a => rw [hst.2.2 a e]; rfl
            | none =>
              have h1 := hst.2.1 e
              have h2 := g rfl
              simp only at h2
              unfold StartIs at h1 h2
              rw [Option.getD_none]
              cases start with
              | none => rw [h1, h2]
              | some x =>
                simp only at h1 h2
                rw [h1] at h2
                cases h2
                rfl
          rw [hr]
          have hread := C16_write_read (pp n.lang) (hd _) _ _ _ hnd
          obtain ⟨k1, k2⟩ := C16_name_kept (pp n.lang) n.node nd p (p.makeRelative l (p.octave - n.node.octave) 7) hp rfl rfl hnd
          have ho : (p.makeRelative l (p.octave - n.node.octave) 7).octave - nd.octave = p.octave - n.node.octave := by rw [k2]; omega
          unfold absNote
          simp only [hread, ho]
          rw [C11_absolute_after_relative]
          obtain ⟨nd2, w⟩ := C16_write_succeeds (pp n.lang) nd p (read_hasName _ (hd _) _ _ hread) ⟨_, _, (readNode_iff _ (hd _) n.node p).1 hp⟩
          obtain ⟨j1, j2⟩ := C16_name_kept (pp n.lang) nd nd2 _ p hread rfl rfl w
          rw [w]
          simp only
          have : nd2 = n.node := by
            obtain ⟨a, b⟩ := nd2
            obtain ⟨⟨c, d⟩, _⟩ := n
            simp only at j1 j2 k1 k2 ho ⊢
            rw [j1, k1]
            congr 1
            omega
          rw [this]

/-- The settings for the way back. -/
def back (pp : Langs) (st : Settings) : Cfg := ⟨pp, st.firstAbs⟩

/-- A node of a list that is converted. -/
def Back (pp : Langs) (st : Settings) (L : Str) (s s' : RelState) (d d' : Doc) : Prop :=
  Goes pp st L s s' ∧ ∀ T, erase T = toDoc d' → Clean L T ∧ ∀ r, Good pp st L s' r →
    ∃ T', walk (back pp st) L (.music (s.last.getD r)) T = .ok (.music (s'.last.getD r), [T']) ∧ erase T' = toDoc d

/-- The same for a list. -/
def BackL (pp : Langs) (st : Settings) (L : Str) (s s' : RelState) (ks ks' : List Doc) : Prop :=
  Goes pp st L s s' ∧ ∀ ts, eraseL ts = toDocs ks' → CleanL L ts ∧ ∀ r, Good pp st L s' r →
    ∃ ts', walkL (back pp st) L (.music (s.last.getD r)) ts = .ok (.music (s'.last.getD r), ts') ∧ eraseL ts' = toDocs ks

theorem noCheck_of {l : Abs2rel.Lab} {ks : List Doc} (h : NoCheckL ks) (hl : l ≠ .lab .check) : NoCheck (.node l ks) := by
  rw [NoCheck]; exact ⟨hl, h⟩

mutual
theorem notes_back (pp : Langs) (hd : ∀ l, IsDict (pp l).table) (st : Settings) (L : Str) : ∀ (d d' : Doc) (s s' : RelState) (L' : Str),
    notes pp st s L d = .ok (s', L', d') → Simple d → NoRel (toDoc d) → OneLang L (toDoc d) → L' = L ∧ Back pp st L s s' d d'
  | .node l ks, d', s, s', L', h, hs, hr, ho => by
    have hr0 := hr
    have ho0 := ho
    rw [toDoc, NoRel] at hr
    rw [toDoc, OneLang] at ho
    -- a node that is passed over
    have over : ∀ x : Rel2abs.Lab, l = .lab x → NoCheckL ks → x ≠ .check → (∀ S i ts, walk (back pp st) L S (.node i x ts) = .ok (S, [.node i x ts])) →
        Back pp st L s s (.node l ks) (.node l ks) := by
      intro x hx hk hc hw
      refine ⟨.refl s, fun T hT => ⟨clean_of hT (noCheck_of hk (by rw [hx]; intro e; cases e; exact hc rfl)) hr0 ho0, fun r _ => ⟨T, ?_, hT⟩⟩⟩
      obtain ⟨i, ts, rfl, _⟩ := erase_node hT
      rw [hx]
      exact hw _ _ _
    -- a node whose children are converted
    have inside : ∀ ks', BackL pp st L s s' ks ks' → Abs2rel.Spec.Lab.plain l ≠ .check →
        (∀ S i ts S' ts', walkL (back pp st) L S ts = .ok (S', ts') →
          walk (back pp st) L S (.node i (Abs2rel.Spec.Lab.plain l) ts) = .ok (S', [.node i (Abs2rel.Spec.Lab.plain l) ts'])) →
        Back pp st L s s' (.node l ks) (.node l ks') := by
      intro ks' hb hc hw
      refine ⟨hb.1, fun T hT => ?_⟩
      obtain ⟨i, ts, rfl, h1⟩ := erase_node hT
      obtain ⟨c1, c2⟩ := hb.2 ts h1
      refine ⟨by rw [Clean]; exact ⟨hr.1, hc, ho.1, c1⟩, fun r g => ?_⟩
      obtain ⟨ts', w1, w2⟩ := c2 r g
      exact ⟨_, hw _ _ _ _ _ w1, erase_mk rfl w2⟩
    have deep : notes pp st s L (.node l ks) = (match notesL pp st s L ks with | .error e => .error e | .ok (s, L, ks) => .ok (s, L, .node l ks)) → SimpleL ks →
        Abs2rel.Spec.Lab.plain l ≠ .check →
        (∀ S i ts S' ts', walkL (back pp st) L S ts = .ok (S', ts') →
          walk (back pp st) L S (.node i (Abs2rel.Spec.Lab.plain l) ts) = .ok (S', [.node i (Abs2rel.Spec.Lab.plain l) ts'])) →
        L' = L ∧ Back pp st L s s' (.node l ks) d' := by
      intro e hk hc hw
      rw [e] at h
      split at h
      · cases h
      · rename_i s1 L1 ks1 e1
        cases h
        obtain ⟨a, b⟩ := notesL_back pp hd st L ks ks1 s s' L' e1 hk hr.2 ho.2
        exact ⟨a, inside _ b hc hw⟩
    cases l with
    | list =>
      rw [Simple] at hs
      · exact deep (by rw [notes] <;> first | (cases notesL pp st s L ks <;> rfl) | simp) hs (by simp [Abs2rel.Spec.Lab.plain]) (by intro S i ts S' ts' w; simp only [Abs2rel.Spec.Lab.plain]; rw [walk, w])
      all_goals simp
    | lab l =>
      cases l with
      | language x =>
        rw [Simple] at hs
        rw [notes] at h
        cases h
        exact ⟨ho.1 _ rfl, over _ rfl hs (by simp) (by intro S i ts; rw [walk])⟩
      | skip k =>
        rw [Simple] at hs
        rw [notes] at h
        cases h
        exact ⟨rfl, over _ rfl hs (by simp) (by intro S i ts; rw [walk])⟩
      | note p nd chk =>
        rw [Simple] at hs
        rw [notes] at h
        split at h
        · cases h
        · rename_i s1 n1 e1
          cases h
          obtain ⟨g, b⟩ := note_back pp hd st s s' _ _ e1
          refine ⟨rfl, g, fun T hT => ?_⟩
          obtain ⟨i, ts, rfl, h1⟩ := erase_node hT
          refine ⟨by
            rw [Clean]
            refine ⟨by simp [Abs2rel.Spec.Lab.plain], by simp [Abs2rel.Spec.Lab.plain], by simp [Abs2rel.Spec.Lab.plain], cleanL_of h1 hs hr.2 ho.2⟩, fun r hg => ?_⟩
          obtain ⟨q, q1, q2⟩ := b r hg
          have hsh := (relNote_shape pp st s s' _ _ e1).1
          have hn1 : mkNote L n1.node n1.check = n1 := by rw [hsh]; rfl
          refine ⟨.node i (.note p nd chk) ts, ?_, erase_mk rfl h1⟩
          simp only [Abs2rel.Spec.Lab.plain]
          rw [walk]
          simp only [hn1, back, q2, q1, Option.getD_some]
      | chord => rw [Simple] at hs; exact hs.elim
      | check => rw [Simple] at hs; exact hs.elim
      | relative => exact (hr.1 rfl).elim
      | comment =>
        rw [Simple] at hs
        · exact deep (by rw [notes] <;> first | (cases notesL pp st s L ks <;> rfl) | simp) hs (by simp [Abs2rel.Spec.Lab.plain]) (by intro S i ts S' ts' w; simp only [Abs2rel.Spec.Lab.plain]; rw [walk, w])
        all_goals simp
      | chordmode =>
        rw [Simple] at hs
        · exact deep (by rw [notes] <;> first | (cases notesL pp st s L ks <;> rfl) | simp) hs (by simp [Abs2rel.Spec.Lab.plain]) (by intro S i ts S' ts' w; simp only [Abs2rel.Spec.Lab.plain]; rw [walk, w])
        all_goals simp
      | other =>
        rw [Simple] at hs
        · exact deep (by rw [notes] <;> first | (cases notesL pp st s L ks <;> rfl) | simp) hs (by simp [Abs2rel.Spec.Lab.plain]) (by intro S i ts S' ts' w; simp only [Abs2rel.Spec.Lab.plain]; rw [walk, w])
        all_goals simp
theorem notesL_back (pp : Langs) (hd : ∀ l, IsDict (pp l).table) (st : Settings) (L : Str) : ∀ (ks ks' : List Doc) (s s' : RelState) (L' : Str),
    notesL pp st s L ks = .ok (s', L', ks') → SimpleL ks → NoRelL (toDocs ks) → OneLangL L (toDocs ks) → L' = L ∧ BackL pp st L s s' ks ks'
  | [], ks', s, s', L', h, _, _, _ => by
    rw [notesL] at h
    cases h
    refine ⟨rfl, .refl s, fun ts hT => ?_⟩
    rw [toDocs] at hT
    rw [eraseL_nil hT]
    exact ⟨by rw [CleanL]; trivial, fun r _ => ⟨[], by rw [walkL], by rw [eraseL, toDocs]⟩⟩
  | k :: ks, ks', s, s', L', h, hs, hr, ho => by
    rw [SimpleL] at hs
    rw [toDocs, NoRelL] at hr
    rw [toDocs, OneLangL] at ho
    rw [notesL] at h
    split at h
    · cases h
    · rename_i s1 L1 k1 e1
      obtain ⟨rfl, b1⟩ := notes_back pp hd st L k k1 s s1 L1 e1 hs.1 hr.1 ho.1
      split at h
      · cases h
      · rename_i s2 L2 ks2 e2
        cases h
        obtain ⟨rfl, b2⟩ := notesL_back pp hd st _ ks ks2 s1 s' L' e2 hs.2 hr.2 ho.2
        refine ⟨rfl, b1.1.trans b2.1, fun ts hT => ?_⟩
        rw [toDocs] at hT
        obtain ⟨t, ts, rfl, h1, h2⟩ := eraseL_cons hT
        obtain ⟨c1, w1⟩ := b1.2 t h1
        obtain ⟨c2, w2⟩ := b2.2 ts h2
        refine ⟨by rw [CleanL]; exact ⟨c1, c2⟩, fun r g => ?_⟩
        obtain ⟨t', x1, y1⟩ := w1 r (b2.1.good g)
        obtain ⟨ts', x2, y2⟩ := w2 r g
        refine ⟨t' :: ts', ?_, by rw [eraseL, toDocs, y1, y2]⟩
        rw [walkL, x1]
        simp only
        rw [x2]
        rfl
end

/-! ## The document -/

/-- A node of the document that was converted. -/
def Returns (pp : Langs) (st : Settings) (L : Str) (d d' : Doc) : Prop :=
  ∀ T, erase T = toDoc d' → Nice T ∧ OneLang L T ∧ ∃ ts, out (back pp st) L T = .ok ts ∧ eraseL ts = [toDoc d]

theorem make_back (pp : Langs) (hd : ∀ l, IsDict (pp l).table) (st : Settings) (L : Str) (l : Abs2rel.Lab) (ks : List Doc) (d' : Doc) (L' : Str)
    (hl : l = .list ∨ l = .lab .chordmode) (h : make pp st L (.node l ks) = .ok (L', d')) (hs : SimpleL ks) (hr : NoRelL (toDocs ks))
    (ho : OneLangL L (toDocs ks)) : L' = L ∧ Returns pp st L (.node l ks) d' ∧ d'.lab ≠ .lab .comment := by
  rw [make] at h
  split at h
  · cases h
  · rename_i s L1 ks1 e1
    cases h
    obtain ⟨rfl, b⟩ := notesL_back pp hd st L ks ks1 {} s L' e1 hs hr ho
    refine ⟨rfl, fun T hT => ?_, by simp [Doc.lab]⟩
    obtain ⟨i, ts, rfl, h1⟩ := erase_node hT
    obtain ⟨r, hst⟩ := b.1.reads ⟨_, rfl⟩
    have hlab : Abs2rel.Spec.Lab.plain l = .other ∨ Abs2rel.Spec.Lab.plain l = .chordmode := by
      rcases hl with rfl | rfl
      · exact .inl rfl
      · exact .inr rfl
    -- the music in it
    have body : ∀ B, erase B = toDoc (.node l ks1) → B.lab ≠ .comment ∧ Clean L' B ∧ ∃ B', walk (back pp st) L' (.music r) B = .ok (.music (s.last.getD r), [B']) ∧
        erase B' = toDoc (.node l ks) := by
      intro B hB
      obtain ⟨j, us, rfl, h2⟩ := erase_node hB
      obtain ⟨c, w⟩ := b.2 us h2
      obtain ⟨us', w1, w2⟩ := w r (fun _ => hst)
      simp only [Option.getD_none] at w1
      refine ⟨?_, ?_, .node j (Abs2rel.Spec.Lab.plain l) us', ?_, erase_mk rfl w2⟩
      · rcases hlab with e | e <;> simp [Rel2abs.Doc.lab, e]
      · rw [Clean]
        rcases hlab with e | e <;> rw [e] <;> exact ⟨by simp, by simp, by simp, c⟩
      · rcases hlab with e | e <;> rw [e, walk, w1]
    have hnc : ∀ B : Rel2abs.Doc, Clean L' B → B.lab ≠ .check := by
      intro B hB
      obtain ⟨j, x, us⟩ := B
      rw [Clean] at hB
      exact hB.2.1
    simp only [Abs2rel.Spec.Lab.plain]
    cases e : s.start with
    | none =>
      rw [e] at h1 hst
      simp only [Option.toList_none, List.map_nil, List.nil_append, toDocs] at h1
      obtain ⟨B, us, rfl, h2, h3⟩ := eraseL_cons h1
      rw [eraseL_nil h3]
      obtain ⟨c0, c1, B', c2, c3⟩ := body B h2
      have hreal : Rel2abs.Spec.real [B] = [B] := by simp [Rel2abs.Spec.real, c0]
      obtain ⟨p1, p2, p3⟩ := clean_parts c1
      refine ⟨?_, ?_, [B'], ?_, by rw [eraseL, eraseL, c3]⟩
      · rw [Nice]
        exact ⟨by simp [NoRelL, p1], by simp [LastChecksL, p2], .inl ⟨B, hreal, hnc B c1⟩⟩
      · rw [OneLang]
        exact ⟨by simp, by simp [OneLangL, p3]⟩
      · rw [out, if_pos rfl, startOf, Rel2abs.Spec.start?, hreal]
        simp only [bodyOf, Rel2abs.Doc.kids, hreal, List.getLast?_singleton, Option.getD_some]
        have hst : r = firstPitch st.firstAbs := hst
        simp only [back] at c2 ⊢
        rw [← hst, c2]
    | some n =>
      rw [e] at h1 hst
      simp only [Option.toList_some, List.map_cons, List.map_nil, List.cons_append, List.nil_append, toDocs] at h1
      obtain ⟨S, us, rfl, h2, h3⟩ := eraseL_cons h1
      obtain ⟨B, us, rfl, h4, h5⟩ := eraseL_cons h3
      rw [eraseL_nil h5]
      rw [startNode] at h2
      obtain ⟨j, vs, rfl, h6⟩ := erase_node h2
      rw [toDocs] at h6
      rw [eraseL_nil h6]
      obtain ⟨c0, c1, B', c2, c3⟩ := body B h4
      simp only [Abs2rel.Spec.Lab.plain]
      have hreal : Rel2abs.Spec.real [.node j (.note true n.node none) [], B] = [.node j (.note true n.node none) [], B] := by
        rw [Rel2abs.Spec.real, List.filter_cons_of_pos (by simp [Rel2abs.Doc.lab]), List.filter_cons_of_pos (by simp [c0]), List.filter_nil]
      obtain ⟨p1, p2, p3⟩ := clean_parts c1
      refine ⟨?_, ?_, [B'], ?_, by rw [eraseL, eraseL, c3]⟩
      · rw [Nice]
        exact ⟨by simp [NoRelL, NoRel, p1], by simp [LastChecksL, LastChecks, p2], .inr ⟨_, B, hreal, rfl, hnc B c1⟩⟩
      · rw [OneLang]
        exact ⟨by simp, by simp [OneLangL, OneLang, p3]⟩
      · rw [out, if_pos rfl, startOf, Rel2abs.Spec.start?, hreal]
        simp only [Rel2abs.Doc.lab, Rel2abs.Lab.isPitch, if_true, Rel2abs.Spec.note?, bodyOf, Rel2abs.Doc.kids, hreal]
        have hst : (pp L').readNode n.node = .ok r := hst
        simp only [back] at c2 ⊢
        rw [hst]
        simp only [List.getLast?_cons_cons, List.getLast?_singleton, Option.getD_some]
        rw [c2]

end Quickly.RoundTrip
