import Verif.Rel2abs.Final

/-! # The music of the tree that comes out -/

namespace Quickly.Rel2abs

open Quickly.Pitch Quickly.Relative Spec Relative.Spec

/-! ## Music without `\relative` -/

theorem noRelativeL_append (a b : List Mus) : NoRelativeL (a ++ b) ↔ NoRelativeL a ∧ NoRelativeL b := by
  induction a with
  | nil => simp [NoRelativeL]
  | cons m a ih => simp [NoRelativeL, ih, and_assoc]

theorem noRelativeL_map (f : Note → Mus) (hf : ∀ n, NoRelative (f n)) (ns : List Note) : NoRelativeL (ns.map f) := by
  induction ns with
  | nil => simp [NoRelativeL]
  | cons n ns ih => simp [NoRelativeL, ih, hf]

mutual
theorem mus_noRel (L : Str) : ∀ t : Doc, NoRel t → NoRelativeL (mus L t)
  | .node i l ks, h => by
    rw [NoRel] at h
    have h0 := fun n => musL_noRel L ks n h.2
    have he := extrasL_noRel L ks h.2
    cases l with
    | note p nd chk => simp [mus, NoRelativeL, NoRelative, h0]
    | chord => simp [mus, NoRelativeL, NoRelative, he]
    | check => rw [mus]; exact noRelativeL_map _ (fun n => by simp [NoRelative]) _
    | relative => exact absurd rfl h.1
    | skip k =>
      cases k with
      | absolute => simp [mus, NoRelativeL, NoRelative, h0]
      | fixed => rw [mus]; split <;> simp [NoRelativeL, NoRelative, h0]
      | transpose => simp [mus, NoRelativeL, NoRelative, h0]
      | key => rw [mus]; exact noRelativeL_map _ (fun n => by simp [NoRelative]) _
      | silent => simp [mus, NoRelativeL]
    | language l => simp [mus, NoRelativeL]
    | comment => simp [mus, NoRelativeL]
    | chordmode => simp [mus, NoRelativeL, NoRelative, h0]
    | other => simp [mus, NoRelativeL, NoRelative, h0]
theorem musL_noRel (L : Str) : ∀ (ts : List Doc) (n : ℕ), NoRelL ts → NoRelativeL (musL L n ts)
  | [], n, _ => by cases n <;> simp [musL, NoRelativeL]
  | t :: ts, n, h => by
    rw [NoRelL] at h
    cases n with
    | zero => rw [musL, noRelativeL_append]; exact ⟨mus_noRel L t h.1, musL_noRel L ts 0 h.2⟩
    | succ n => rw [musL]; split_ifs <;> exact musL_noRel L ts _ h.2
theorem extras_noRel (L : Str) : ∀ t : Doc, NoRel t → NoRelativeL (extras L t)
  | .node i l ks, h => by
    rw [NoRel] at h
    have h0 := fun n => musL_noRel L ks n h.2
    have he := extrasL_noRel L ks h.2
    cases l <;> simp [extras, NoRelativeL, NoRelative, h0, he]
theorem extrasL_noRel (L : Str) : ∀ ts : List Doc, NoRelL ts → NoRelativeL (extrasL L ts)
  | [], _ => by simp [extrasL, NoRelativeL]
  | t :: ts, h => by
    rw [NoRelL] at h
    rw [extrasL, noRelativeL_append]
    exact ⟨extras_noRel L t h.1, extrasL_noRel L ts h.2⟩
end

mutual
/-- Music without `\relative` stays as it is. -/
theorem rel2abs_noRel (pp : Langs) (fa : Bool) : ∀ m : Mus, NoRelative m → rel2abs pp fa none m = .ok (none, [m])
  | .note n, _ => by rw [rel2abs]
  | .chord ns, _ => by rw [rel2abs]
  | .check n, _ => by rw [rel2abs]
  | .key n, _ => by rw [rel2abs]
  | .group ms, h => by rw [NoRelative] at h; rw [rel2abs, rel2absList_noRel pp fa ms h]
  | .relative s ms, h => by rw [NoRelative] at h; exact h.elim
  | .fixed s ms, h => by rw [NoRelative] at h; rw [rel2abs, rel2absList_noRel pp fa ms h]
  | .absolute ms, h => by rw [NoRelative] at h; rw [rel2abs, rel2absList_noRel pp fa ms h]
  | .apart .transpose as ms, h => by rw [NoRelative] at h; rw [rel2abs, rel2absList_noRel pp fa ms h]
  | .apart .chordmode as ms, h => by rw [NoRelative] at h; rw [rel2abs, rel2absList_noRel pp fa ms h]
theorem rel2absList_noRel (pp : Langs) (fa : Bool) : ∀ ms : List Mus, NoRelativeL ms → rel2absList pp fa none ms = .ok (none, ms)
  | [], _ => by rw [rel2absList]
  | m :: ms, h => by
    rw [NoRelativeL] at h
    rw [rel2absList, rel2abs_noRel pp fa m h.1]
    simp only
    rw [rel2absList_noRel pp fa ms h.2]
    rfl
end

theorem rel2absList_append (pp : Langs) (fa : Bool) : ∀ (a b : List Mus) (l l' : Option Pitch) (ms : List Mus),
    rel2absList pp fa l (a ++ b) = .ok (l', ms) → ∃ l1 a' b', rel2absList pp fa l a = .ok (l1, a') ∧ rel2absList pp fa l1 b = .ok (l', b') ∧ ms = a' ++ b'
  | [], b, l, l', ms, h => ⟨l, [], ms, by rw [rel2absList], h, rfl⟩
  | m :: a, b, l, l', ms, h => by
    rw [List.cons_append, rel2absList] at h
    split at h
    · simp at h
    · rename_i l1 m' h1
      split at h
      · simp at h
      · rename_i l2 ms' h2
        simp only [Except.ok.injEq, Prod.mk.injEq] at h
        obtain ⟨rfl, rfl⟩ := h
        obtain ⟨l3, a', b', e1, e2, rfl⟩ := rel2absList_append pp fa a b _ _ _ h2
        refine ⟨l3, m' ++ a', b', ?_, e2, by simp⟩
        rw [rel2absList, h1]
        simp only
        rw [e1]

/-- Music with no `\relative`, in nodes that the walk does not look into. -/
theorem rel2absList_apart (pp : Langs) (fa : Bool) (last : Option Pitch) (ms : List Mus)
    (h : ∀ m ∈ ms, (∃ n, m = .key n) ∨ (∃ ks, m = .absolute ks ∧ NoRelativeL ks) ∨ (∃ s ks, m = .fixed s ks ∧ NoRelativeL ks) ∨
      ∃ as ks, m = .apart .transpose as ks ∧ NoRelativeL ks) : rel2absList pp fa last ms = .ok (last, ms) := by
  induction ms with
  | nil => rw [rel2absList]
  | cons m ms ih =>
    have : rel2abs pp fa last m = .ok (last, [m]) := by
      rcases h m (List.mem_cons_self ..) with ⟨n, rfl⟩ | ⟨ks, rfl, hk⟩ | ⟨s, ks, rfl, hk⟩ | ⟨as, ks, rfl, hk⟩
      · rw [rel2abs]
      · rw [rel2abs, rel2absList_noRel pp fa ks hk]
      · rw [rel2abs, rel2absList_noRel pp fa ks hk]
      · rw [rel2abs, rel2absList_noRel pp fa ks hk]
    rw [rel2absList, this]
    simp only
    rw [ih fun m hm => h m (List.mem_cons_of_mem _ hm)]
    rfl

mutual
theorem extras_absolute (L : Str) : ∀ t : Doc, NoRel t → ∀ m ∈ extras L t, ∃ ks, m = .absolute ks ∧ NoRelativeL ks
  | .node i l ks, h => by
    rw [NoRel] at h
    have he := extrasL_absolute L ks h.2
    cases l <;> simp only [extras, List.mem_singleton, List.not_mem_nil, false_imp_iff, implies_true]
    · rintro m rfl; exact ⟨_, rfl, musL_noRel L ks 0 h.2⟩
    · exact he
    · exact he
theorem extrasL_absolute (L : Str) : ∀ ts : List Doc, NoRelL ts → ∀ m ∈ extrasL L ts, ∃ ks, m = .absolute ks ∧ NoRelativeL ks
  | [], _ => by simp [extrasL]
  | t :: ts, h => by
    rw [NoRelL] at h
    intro m hm
    rw [extrasL, List.mem_append] at hm
    exact hm.elim (extras_absolute L t h.1 m) (extrasL_absolute L ts h.2 m)
end

/-! ## The walk -/

theorem musL_append (L : Str) (a b : List Doc) : musL L 0 (a ++ b) = musL L 0 a ++ musL L 0 b := by
  induction a with
  | nil => simp [musL]
  | cons t a ih => simp [musL, ih]

theorem notesInL_append (L : Str) (a b : List Doc) : notesInL L (a ++ b) = notesInL L a ++ notesInL L b := by
  induction a with
  | nil => simp [notesInL]
  | cons t a ih => simp [notesInL, ih]

theorem extrasL_append (L : Str) (a b : List Doc) : extrasL L (a ++ b) = extrasL L a ++ extrasL L b := by
  induction a with
  | nil => simp [extrasL]
  | cons t a ih => simp [extrasL, ih]

theorem absStack_append (pp : Langs) : ∀ (a b : List Note) (top : Pitch) (rs : List (Pitch × Note)), absStack pp top (a ++ b) = .ok rs →
    ∃ r1 r2, absStack pp top a = .ok r1 ∧ absStack pp ((r1.getLast?.map Prod.fst).getD top) b = .ok r2 ∧ rs = r1 ++ r2
  | [], b, top, rs, h => ⟨[], rs, by rw [absStack], by simpa using h, rfl⟩
  | n :: a, b, top, rs, h => by
    rw [List.cons_append, absStack] at h
    split at h
    · simp at h
    · rename_i r hr
      split at h
      · simp at h
      · rename_i rs' h2
        simp only [Except.ok.injEq] at h
        subst h
        obtain ⟨r1, r2, e1, e2, rfl⟩ := absStack_append pp a b _ _ h2
        refine ⟨r :: r1, r2, by rw [absStack, hr]; simp only; rw [e1], ?_, rfl⟩
        cases r1 with
        | nil => simpa using e2
        | cons x r1 => rw [List.getLast?_cons_cons]; rw [List.getLast?_eq_some_getLast (by simp)] at e2 ⊢; exact e2

theorem absNote_note {pp : Langs} {L : Str} {nd : PNode} {chk : Option ℤ} {last q : Pitch} {n : Note}
    (h : absNote pp (mkNote L nd chk) last = .ok (q, n)) : n = mkNote L n.node n.check := by
  rw [absNote] at h
  split at h
  · simp at h
  · simp only at h
    split at h
    · simp at h
    · simp only [Except.ok.injEq, Prod.mk.injEq] at h
      rw [← h.2]; rfl

mutual
/-- The notes in a chord. -/
theorem walk_chord (c : Cfg) (L : Str) : ∀ (t : Doc) (top : Pitch) (first : Option Pitch) (rs : List (Pitch × Note)), NoRel t → Tidy true t →
    absStack c.pp top (notesIn L t) = .ok rs →
    ∃ ts, walk c L (.chord top first) t = .ok (.chord ((rs.getLast?.map Prod.fst).getD top) (first.or (rs.head?.map Prod.fst)), ts) ∧
      notesInL L ts = rs.map Prod.snd ∧ extrasL L ts = extras L t
  | .node i l ks, top, first, rs, hn, ht, h => by
    rw [NoRel] at hn
    have same : ∀ l', notesIn L (.node i l' ks) = [] → rs = [] → ∃ ts, (Except.ok (Sink.chord top first, [Doc.node i l' ks]) : Py (Sink × List Doc)) =
        .ok (.chord ((rs.getLast?.map Prod.fst).getD top) (first.or (rs.head?.map Prod.fst)), ts) ∧
        notesInL L ts = rs.map Prod.snd ∧ extrasL L ts = extras L (.node i l' ks) := by
      intro l' h1 h2
      subst h2
      exact ⟨_, by cases first <;> rfl, by simp [notesInL, h1], by simp [extrasL]⟩
    have empty : notesIn L (.node i l ks) = [] → rs = [] := by intro e; rw [e, absStack] at h; simpa using h.symm
    cases l with
    | note p nd chk =>
      simp only [notesIn, absStack] at h
      split at h
      · simp at h
      · rename_i r hr
        simp only [Except.ok.injEq] at h
        subst h
        obtain ⟨q, n⟩ := r
        refine ⟨[.node i (.note p n.node n.check) ks], ?_, ?_, by simp [extrasL, extras]⟩
        · simp only [walk, mkNote, hr]
          cases first <;> rfl
        · have := absNote_note (L := L) (nd := nd) (chk := chk) hr
          simp only [notesInL, notesIn, List.append_nil, List.map_cons, List.map_nil]
          rw [this]; rfl
    | chord => rw [Tidy] at ht; exact absurd ht.1 (by simp)
    | check => rw [Tidy] at ht; exact absurd ht.1 (by simp)
    | relative => exact absurd rfl hn.1
    | skip k => simp only [walk]; exact same _ (by simp [notesIn]) (empty (by simp [notesIn]))
    | language l => simp only [walk]; exact same _ (by simp [notesIn]) (empty (by simp [notesIn]))
    | comment =>
      rw [Tidy] at ht
      subst ht
      simp only [walk, walkL]; exact same _ (by simp [notesIn]) (empty (by simp [notesIn]))
    | chordmode =>
      simp only [notesIn] at h
      obtain ⟨ts, e1, e2, e3⟩ := walkL_chord c L ks top first rs hn.2 (by simpa [Tidy] using ht) h
      exact ⟨[.node i .chordmode ts], by simp only [walk, e1], by simp [notesInL, notesIn, e2], by simp [extrasL, extras, e3]⟩
    | other =>
      simp only [notesIn] at h
      obtain ⟨ts, e1, e2, e3⟩ := walkL_chord c L ks top first rs hn.2 (by simpa [Tidy] using ht) h
      exact ⟨[.node i .other ts], by simp only [walk, e1], by simp [notesInL, notesIn, e2], by simp [extrasL, extras, e3]⟩
theorem walkL_chord (c : Cfg) (L : Str) : ∀ (ts : List Doc) (top : Pitch) (first : Option Pitch) (rs : List (Pitch × Note)), NoRelL ts → TidyL true ts →
    absStack c.pp top (notesInL L ts) = .ok rs →
    ∃ us, walkL c L (.chord top first) ts = .ok (.chord ((rs.getLast?.map Prod.fst).getD top) (first.or (rs.head?.map Prod.fst)), us) ∧
      notesInL L us = rs.map Prod.snd ∧ extrasL L us = extrasL L ts
  | [], top, first, rs, _, _, h => by
    rw [notesInL, absStack] at h
    simp only [Except.ok.injEq] at h
    subst h
    exact ⟨[], by rw [walkL]; cases first <;> rfl, by simp [notesInL], by simp [extrasL]⟩
  | t :: ts, top, first, rs, hn, ht, h => by
    rw [NoRelL] at hn
    rw [TidyL] at ht
    rw [notesInL] at h
    obtain ⟨r1, r2, e1, e2, rfl⟩ := absStack_append _ _ _ _ _ h
    obtain ⟨a, a1, a2, a3⟩ := walk_chord c L t top first r1 hn.1 ht.1 e1
    obtain ⟨b, b1, b2, b3⟩ := walkL_chord c L ts _ (first.or (r1.head?.map Prod.fst)) r2 hn.2 ht.2 e2
    refine ⟨a ++ b, ?_, by rw [notesInL_append, a2, b2, List.map_append], by rw [extrasL_append, a3, b3, extrasL]⟩
    rw [walkL, a1]
    simp only
    rw [b1]
    simp only
    congr 3
    · cases r2 with
      | nil => simp
      | cons x r2 => rw [List.getLast?_append_cons, List.getLast?_eq_some_getLast (by simp : x :: r2 ≠ [])]; simp
    · cases first <;> cases r1 <;> simp
end

mutual
/-- The note of an `\octaveCheck`. -/
theorem walk_check (c : Cfg) (L : Str) : ∀ (t : Doc) (last : Pitch) (l' : Option Pitch) (ms : List Mus), NoRel t → Tidy true t →
    rel2absList c.pp c.firstAbs (some last) ((notesIn L t).map .check) = .ok (l', ms) →
    ∃ q ts, walk c L (.check last) t = .ok (.check q, ts) ∧ l' = some q ∧ ms = []
  | .node i l ks, last, l', ms, hn, ht, h => by
    rw [NoRel] at hn
    have empty : notesIn L (.node i l ks) = [] → l' = some last ∧ ms = [] := by
      intro e; rw [e] at h; simp only [List.map_nil, rel2absList, Except.ok.injEq, Prod.mk.injEq] at h; exact ⟨h.1.symm, h.2.symm⟩
    cases l with
    | note p nd chk =>
      simp only [notesIn, List.map_cons, List.map_nil, rel2absList, rel2abs] at h
      split at h
      · simp at h
      · rename_i l2 m h2
        split at h2
        · simp at h2
        · rename_i q hq
          simp only [Except.ok.injEq, Prod.mk.injEq] at h2 h
          refine ⟨q, _, by simp only [walk]; rw [hq], by rw [← h.1, ← h2.1], by rw [← h.2, ← h2.2]; rfl⟩
    | chord => rw [Tidy] at ht; exact absurd ht.1 (by simp)
    | check => rw [Tidy] at ht; exact absurd ht.1 (by simp)
    | relative => exact absurd rfl hn.1
    | skip k => exact ⟨last, _, by simp only [walk]; rfl, empty (by simp [notesIn])⟩
    | language l => exact ⟨last, _, by simp only [walk]; rfl, empty (by simp [notesIn])⟩
    | comment =>
      rw [Tidy] at ht
      subst ht
      exact ⟨last, _, by simp only [walk, walkL]; rfl, empty (by simp [notesIn])⟩
    | chordmode =>
      simp only [notesIn] at h
      obtain ⟨q, ts, e1, e2⟩ := walkL_check c L ks last l' ms hn.2 (by simpa [Tidy] using ht) h
      exact ⟨q, _, by simp only [walk, e1]; rfl, e2⟩
    | other =>
      simp only [notesIn] at h
      obtain ⟨q, ts, e1, e2⟩ := walkL_check c L ks last l' ms hn.2 (by simpa [Tidy] using ht) h
      exact ⟨q, _, by simp only [walk, e1]; rfl, e2⟩
theorem walkL_check (c : Cfg) (L : Str) : ∀ (ts : List Doc) (last : Pitch) (l' : Option Pitch) (ms : List Mus), NoRelL ts → TidyL true ts →
    rel2absList c.pp c.firstAbs (some last) ((notesInL L ts).map .check) = .ok (l', ms) →
    ∃ q us, walkL c L (.check last) ts = .ok (.check q, us) ∧ l' = some q ∧ ms = []
  | [], last, l', ms, _, _, h => by
    simp only [notesInL, List.map_nil, rel2absList, Except.ok.injEq, Prod.mk.injEq] at h
    exact ⟨last, [], by rw [walkL], h.1.symm, h.2.symm⟩
  | t :: ts, last, l', ms, hn, ht, h => by
    rw [NoRelL] at hn
    rw [TidyL] at ht
    rw [notesInL, List.map_append] at h
    obtain ⟨l1, a', b', e1, e2, rfl⟩ := rel2absList_append _ _ _ _ _ _ _ h
    obtain ⟨q, a, a1, rfl, rfl⟩ := walk_check c L t last l1 a' hn.1 ht.1 e1
    obtain ⟨q', b, b1, rfl, rfl⟩ := walkL_check c L ts q l' b' hn.2 ht.2 e2
    refine ⟨q', a ++ b, ?_, rfl, rfl⟩
    rw [walkL, a1]
    simp only
    rw [b1]
end

mutual
/-- The walk over the music of a `\relative` does what C25 says. -/
theorem walk_mus (c : Cfg) (L : Str) : ∀ (t : Doc) (last : Pitch) (l' : Option Pitch) (ms : List Mus), NoRel t → Tidy false t →
    rel2absList c.pp c.firstAbs (some last) (mus L t) = .ok (l', ms) →
    ∃ q ts, walk c L (.music last) t = .ok (.music q, ts) ∧ l' = some q ∧ ms = musL L 0 ts
  | .node i l ks, last, l', ms, hn, ht, h => by
    have hnt : NoRel (.node i l ks) := hn
    rw [NoRel] at hn
    have same : ∀ m, rel2absList c.pp c.firstAbs (some last) m = .ok (some last, m) → mus L (.node i l ks) = m →
        ∃ q ts, (Except.ok (Sink.music last, [Doc.node i l ks]) : Py (Sink × List Doc)) = .ok (.music q, ts) ∧ l' = some q ∧ ms = musL L 0 ts := by
      intro m h1 h2
      rw [h2, h1] at h
      simp only [Except.ok.injEq, Prod.mk.injEq] at h
      refine ⟨last, _, rfl, h.1.symm, ?_⟩
      simp [musL, h2, h.2]
    cases l with
    | note p nd chk =>
      simp only [mus, rel2absList] at h
      rw [rel2abs] at h
      split at h
      · simp at h
      · rename_i l1 m1 h1
        split at h1
        · simp at h1
        · rename_i q n hq
          simp only [Except.ok.injEq, Prod.mk.injEq] at h1
          obtain ⟨rfl, rfl⟩ := h1
          rw [rel2abs, rel2absList_noRel _ _ _ (musL_noRel L ks 0 hn.2)] at h
          simp only [Except.ok.injEq, Prod.mk.injEq] at h
          refine ⟨q, [.node i (.note p n.node n.check) ks], ?_, h.1.symm, ?_⟩
          · simp only [walk]; rw [show mkNote L nd chk = { node := nd, check := chk, lang := L } from rfl, hq]
          · rw [← h.2]
            have := absNote_note (L := L) (nd := nd) (chk := chk) hq
            simp only [musL, mus, List.append_nil, List.cons_append, List.nil_append]
            rw [this]; rfl
    | chord =>
      rw [Tidy] at ht
      simp only [mus, rel2absList] at h
      rw [rel2abs] at h
      split at h
      · simp at h
      · rename_i l1 m1 h1
        split at h1
        · simp at h1
        · rename_i q ns hq
          simp only [Except.ok.injEq, Prod.mk.injEq] at h1
          obtain ⟨rfl, rfl⟩ := h1
          rw [rel2absList_apart _ _ _ _ (fun m hm => .inr (.inl (extrasL_absolute L ks hn.2 m hm)))] at h
          simp only [Except.ok.injEq, Prod.mk.injEq] at h
          rw [absChord] at hq
          have : ∃ rs, absStack c.pp last (notesInL L ks) = .ok rs ∧ q = (rs.head?.map Prod.fst).getD last ∧ ns = rs.map Prod.snd := by
            split at hq
            · simp at hq
            · rename_i h2
              simp only [Except.ok.injEq, Prod.mk.injEq] at hq
              exact ⟨[], h2, by simp [hq.1], by simp [← hq.2]⟩
            · rename_i r rs h2
              simp only [Except.ok.injEq, Prod.mk.injEq] at hq
              exact ⟨r :: rs, h2, by simp [hq.1], hq.2.symm⟩
          obtain ⟨rs, h2, rfl, rfl⟩ := this
          obtain ⟨us, e1, e2, e3⟩ := walkL_chord c L ks last none rs hn.2 ht.2 h2
          refine ⟨_, [.node i .chord us], by simp only [walk, e1]; rfl, ?_, ?_⟩
          · rw [← h.1]; simp
          · rw [← h.2]; simp [musL, mus, e2, e3]
    | check =>
      rw [Tidy] at ht
      simp only [mus] at h
      obtain ⟨q, us, e1, rfl, rfl⟩ := walkL_check c L ks last l' ms hn.2 ht.2 h
      exact ⟨q, [], by simp only [walk, e1], rfl, by simp [musL]⟩
    | relative => exact absurd rfl hn.1
    | skip k =>
      simp only [walk]
      have h0 := fun n => musL_noRel L ks n hn.2
      refine same _ ?_ rfl
      refine rel2absList_apart _ _ _ _ fun m hm => ?_
      cases k with
      | absolute => simp only [mus, List.mem_singleton] at hm; exact .inr (.inl ⟨_, hm, h0 0⟩)
      | fixed =>
        rw [mus] at hm
        split at hm
        · rw [List.mem_singleton] at hm; exact .inr (.inr (.inl ⟨_, _, hm, h0 1⟩))
        · rw [List.mem_singleton] at hm; exact .inr (.inl ⟨_, hm, h0 1⟩)
      | transpose => simp only [mus, List.mem_singleton] at hm; exact .inr (.inr (.inr ⟨_, _, hm, h0 2⟩))
      | key => simp only [mus, List.mem_map] at hm; obtain ⟨n, _, rfl⟩ := hm; exact .inl ⟨n, rfl⟩
      | silent => simp [mus] at hm
    | language l => simp only [walk]; exact same _ (by simp [mus, rel2absList]) rfl
    | comment =>
      rw [Tidy] at ht
      subst ht
      simp only [walk, walkL]; exact same _ (by simp [mus, rel2absList]) rfl
    | chordmode =>
      simp only [mus, rel2absList, rel2abs] at h
      split at h
      · simp at h
      · rename_i l1 m1 h1
        split at h1
        · simp at h1
        · rename_i l2 ms2 h2
          simp only [Except.ok.injEq, Prod.mk.injEq] at h h1
          obtain ⟨q, us, e1, rfl, rfl⟩ := walkL_mus c L ks last l2 ms2 hn.2 (by simpa [Tidy] using ht) h2
          refine ⟨q, _, by simp only [walk, e1]; rfl, by rw [← h.1, ← h1.1], ?_⟩
          rw [← h.2, ← h1.2]; simp [musL, mus]
    | other =>
      simp only [mus, rel2absList, rel2abs] at h
      split at h
      · simp at h
      · rename_i l1 m1 h1
        split at h1
        · simp at h1
        · rename_i l2 ms2 h2
          simp only [Except.ok.injEq, Prod.mk.injEq] at h h1
          obtain ⟨q, us, e1, rfl, rfl⟩ := walkL_mus c L ks last l2 ms2 hn.2 (by simpa [Tidy] using ht) h2
          refine ⟨q, _, by simp only [walk, e1]; rfl, by rw [← h.1, ← h1.1], ?_⟩
          rw [← h.2, ← h1.2]; simp [musL, mus]
theorem walkL_mus (c : Cfg) (L : Str) : ∀ (ts : List Doc) (last : Pitch) (l' : Option Pitch) (ms : List Mus), NoRelL ts → TidyL false ts →
    rel2absList c.pp c.firstAbs (some last) (musL L 0 ts) = .ok (l', ms) →
    ∃ q us, walkL c L (.music last) ts = .ok (.music q, us) ∧ l' = some q ∧ ms = musL L 0 us
  | [], last, l', ms, _, _, h => by
    simp only [musL, rel2absList, Except.ok.injEq, Prod.mk.injEq] at h
    exact ⟨last, [], by rw [walkL], h.1.symm, by rw [musL]; exact h.2.symm⟩
  | t :: ts, last, l', ms, hn, ht, h => by
    rw [NoRelL] at hn
    rw [TidyL] at ht
    rw [musL] at h
    obtain ⟨l1, a', b', e1, e2, rfl⟩ := rel2absList_append _ _ _ _ _ _ _ h
    obtain ⟨q, a, a1, rfl, rfl⟩ := walk_mus c L t last l1 a' hn.1 ht.1 e1
    obtain ⟨q', b, b1, rfl, rfl⟩ := walkL_mus c L ts q l' b' hn.2 ht.2 e2
    refine ⟨q', a ++ b, ?_, rfl, by rw [musL_append]⟩
    rw [walkL, a1]
    simp only
    rw [b1]
end

/-! ## The document -/

mutual
theorem out_noRel (c : Cfg) (L : Str) : ∀ t : Doc, NoRel t → out c L t = .ok [t]
  | .node i l ks, h => by
    rw [NoRel] at h
    rw [out, if_neg h.1, outL_noRel c L ks h.2]
theorem outL_noRel (c : Cfg) (L : Str) : ∀ ts : List Doc, NoRelL ts → outL c L ts = .ok ts
  | [], _ => by rw [outL]
  | t :: ts, h => by
    rw [NoRelL] at h
    rw [outL, out_noRel c L t h.1]
    simp only
    rw [outL_noRel c L ts h.2]
    rfl
end

theorem musL_comments (L : Str) : ∀ (ks : List Doc) (b : Doc), real ks = [b] → musL L 0 ks = mus L b
  | [], b, h => by simp [real] at h
  | k :: ks, b, h => by
    rw [musL]
    by_cases hk : k.lab = .comment
    · have : mus L k = [] := by obtain ⟨i, l, us⟩ := k; rw [Doc.lab] at hk; subst hk; simp [mus]
      rw [this, List.nil_append]
      exact musL_comments L ks b (by simpa [real, hk] using h)
    · have h2 : k = b ∧ real ks = [] := by simpa [real, hk] using h
      rw [h2.1]
      have : musL L 0 ks = [] := by
        have h3 := h2.2
        clear h h2
        induction ks with
        | nil => rw [musL]
        | cons u ks ih =>
          by_cases hu : u.lab = .comment
          · have e : mus L u = [] := by obtain ⟨i, l, us⟩ := u; rw [Doc.lab] at hu; subst hu; simp [mus]
            rw [musL, e, List.nil_append]
            exact ih (by simpa [real, hu] using h3)
          · simp [real, hu] at h3
      rw [this, List.append_nil]

theorem musL_start (L : Str) : ∀ (ks : List Doc) (s b : Doc), real ks = [s, b] → musL L 1 ks = mus L b
  | [], s, b, h => by simp [real] at h
  | k :: ks, s, b, h => by
    rw [musL]
    by_cases hk : k.lab = .comment
    · rw [if_pos hk]; exact musL_start L ks s b (by simpa [real, hk] using h)
    · have h2 : k = s ∧ real ks = [b] := by simpa [real, hk] using h
      rw [if_neg hk]
      exact musL_comments L ks b h2.2

theorem tidyL_mem {b : Bool} : ∀ {ts : List Doc}, TidyL b ts → ∀ t ∈ ts, Tidy b t
  | u :: ts, h, t, ht => by
    rw [TidyL] at h
    rcases List.mem_cons.1 ht with rfl | ht
    · exact h.1
    · exact tidyL_mem h.2 t ht

theorem out_rel (c : Cfg) (L : Str) (i : Id) (ks : List Doc) (l' : Option Pitch) (ms : List Mus) (hr : RelOk ks) (ht : TidyL false ks)
    (h : rel2absList c.pp c.firstAbs none (mus L (.node i .relative ks)) = .ok (l', ms)) :
    ∃ ts, out c L (.node i .relative ks) = .ok ts ∧ l' = none ∧ ms = musL L 0 ts := by
  obtain ⟨hb1, _, hb3, _⟩ := relOk_body (r := .node i .relative ks) hr
  have htb : Tidy false (bodyOf (.node i .relative ks)) := tidyL_mem ht _ hb1
  have main : ∃ p, startOf c L ks = .ok p ∧ ∃ l2, rel2absList c.pp c.firstAbs (some p) (mus L (bodyOf (.node i .relative ks))) = .ok (l2, ms) ∧ l' = none := by
    rcases hr.shape with ⟨b, hb, _⟩ | ⟨s, b, hb, hs, _⟩
    · have e1 : start? L ks = none := by rw [start?, hb]
      have e2 : bodyOf (.node i .relative ks) = b := by simp [bodyOf, Doc.kids, hb]
      rw [e2]
      refine ⟨firstPitch c.firstAbs, by rw [startOf, e1], ?_⟩
      simp only [mus, e1, rel2absList, rel2abs, Option.toList_none, List.length_nil, musL_comments L ks b hb] at h
      split at h
      · simp at h
      · rename_i l1 m1 h1
        split at h1
        · simp at h1
        · rename_i l2 ms2 h2
          simp only [Except.ok.injEq, Prod.mk.injEq] at h h1
          refine ⟨l2, ?_, by rw [← h.1, ← h1.1]⟩
          rw [h2, ← h.2, ← h1.2]; simp
    · have e2 : bodyOf (.node i .relative ks) = b := by simp [bodyOf, Doc.kids, hb]
      rw [e2]
      obtain ⟨si, sl, sk⟩ := s
      rw [Doc.lab] at hs
      cases sl with
      | note p nd chk =>
        have e1 : start? L ks = some { node := nd, check := chk, lang := L } := by
          rw [start?, hb]; exact if_pos hs
        simp only [mus, e1, rel2absList, rel2abs, Option.toList_some, List.length_singleton, musL_start L ks _ b hb] at h
        split at h
        · simp at h
        · rename_i l1 m1 h1
          split at h1
          · simp at h1
          · rename_i q hq
            split at h1
            · simp at h1
            · rename_i l2 ms2 h2
              simp only [Except.ok.injEq, Prod.mk.injEq] at h h1
              refine ⟨q, by rw [startOf, e1]; exact hq, l2, ?_, by rw [← h.1, ← h1.1]⟩
              rw [h2, ← h.2, ← h1.2]; simp
      | _ => simp [Lab.isPitch] at hs
  obtain ⟨p, h1, l2, h2, h3⟩ := main
  obtain ⟨q, ts, e1, _, e3⟩ := walk_mus c L _ p l2 ms hb3 htb h2
  refine ⟨ts, ?_, h3, e3⟩
  rw [out, if_pos rfl, h1]
  simp only
  rw [e1]

/-- A single node of music with `\relative` in it. -/
theorem one {pp : Langs} {fa : Bool} {m : Mus} {l' : Option Pitch} {ms : List Mus} (h : rel2absList pp fa none [m] = .ok (l', ms)) :
    rel2abs pp fa none m = .ok (l', ms) := by
  rw [rel2absList] at h
  split at h
  · simp at h
  · rename_i l m h1
    simp only [rel2absList, Except.ok.injEq, Prod.mk.injEq] at h
    rw [h1, ← h.1, ← h.2, List.append_nil]

mutual
/-- The edit of the document does what C25 says. -/
theorem out_mus (c : Cfg) (L : Str) : ∀ (t : Doc) (l' : Option Pitch) (ms : List Mus), Nice t → Tidy false t →
    rel2absList c.pp c.firstAbs none (mus L t) = .ok (l', ms) →
    ∃ ts, out c L t = .ok ts ∧ l' = none ∧ ms = musL L 0 ts
  | .node i l ks, l', ms, hn, ht, h => by
    by_cases hl : l = .relative
    · subst hl
      exact out_rel c L i ks l' ms (nice_rel hn) (by simpa [Tidy] using ht) h
    have hno := nice_other hn hl
    have plain : NoRelL ks → ∃ ts, out c L (.node i l ks) = .ok ts ∧ l' = none ∧ ms = musL L 0 ts := by
      intro h0
      have hnr : NoRel (.node i l ks) := by rw [NoRel]; exact ⟨hl, h0⟩
      rw [rel2absList_noRel _ _ _ (mus_noRel L _ hnr)] at h
      simp only [Except.ok.injEq, Prod.mk.injEq] at h
      exact ⟨_, out_noRel c L _ hnr, h.1.symm, by simp [musL, ← h.2]⟩
    have wrap : ∀ us, outL c L ks = .ok us → out c L (.node i l ks) = .ok [.node i l us] := by
      intro us hu; rw [out, if_neg hl, hu]
    have ih := fun n l2 m2 => outL_mus c L ks n l2 m2 hno.2.2
    cases l with
    | note p nd chk =>
      rw [mus, rel2absList, rel2abs] at h
      simp only at h
      split at h
      · simp at h
      · rename_i l1 m1 h1
        rw [show musL L 0 ks = musL L 0 ks from rfl] at h1
        have h1' := one h1
        rw [rel2abs] at h1'
        split at h1'
        · simp at h1'
        · rename_i l2 m2 h2
          simp only [Except.ok.injEq, Prod.mk.injEq] at h1' h
          obtain ⟨us, e1, e2, e3, _⟩ := ih 0 _ _ (by simpa [Tidy] using ht) (by simp [firsts, NoRelL]) h2
          refine ⟨_, wrap us e1, by rw [← h.1, ← h1'.1], ?_⟩
          rw [← h.2, ← h1'.2, e3]; simp [musL, mus]
    | chord => exact plain (hno.1 rfl)
    | check => exact plain (hno.1 rfl)
    | relative => exact absurd rfl hl
    | skip k =>
      rw [Tidy] at ht
      cases k with
      | absolute =>
        rw [mus] at h
        have h1 := one h
        rw [rel2abs] at h1
        split at h1
        · simp at h1
        · rename_i l2 m2 h2
          simp only [Except.ok.injEq, Prod.mk.injEq] at h1
          obtain ⟨us, e1, e2, e3, _⟩ := ih 0 _ _ ht (by simp [firsts, NoRelL]) h2
          exact ⟨_, wrap us e1, h1.1.symm, by rw [← h1.2, e3]; simp [musL, mus]⟩
      | fixed =>
        have main : ∀ (m : List Mus → Mus), mus L (.node i (.skip .fixed) ks) = [m (musL L 1 ks)] →
            (∀ us, (firsts 1 us).filterMap (note? L) = (firsts 1 ks).filterMap (note? L) → mus L (.node i (.skip .fixed) us) = [m (musL L 1 us)]) →
            (∀ x, rel2abs c.pp c.firstAbs none (m x) = match rel2absList c.pp c.firstAbs none x with
              | .error e => .error e
              | .ok (_, ms) => .ok (none, [m ms])) →
            ∃ ts, out c L (.node i (.skip .fixed) ks) = .ok ts ∧ l' = none ∧ ms = musL L 0 ts := by
          intro m h1 h2 h3
          rw [h1] at h
          have h4 := one h
          rw [h3] at h4
          split at h4
          · simp at h4
          · rename_i l2 m2 h5
            simp only [Except.ok.injEq, Prod.mk.injEq] at h4
            obtain ⟨us, e1, e2, e3, e4⟩ := ih 1 _ _ ht hno.2.1 h5
            refine ⟨_, wrap us e1, h4.1.symm, ?_⟩
            rw [← h4.2, e3, musL, h2 us (by rw [e4]), musL]; rfl
        cases hfi : (firsts 1 ks).filterMap (note? L) with
        | nil =>
          refine main .absolute (by rw [mus, hfi]) (fun us hu => by rw [mus, hu, hfi]) (fun x => ?_)
          rw [rel2abs]
          rcases rel2absList c.pp c.firstAbs none x with e | ⟨a, b⟩ <;> rfl
        | cons n ns =>
          refine main (.fixed n) (by rw [mus, hfi]) (fun us hu => by rw [mus, hu, hfi]) (fun x => ?_)
          rw [rel2abs]
          rcases rel2absList c.pp c.firstAbs none x with e | ⟨a, b⟩ <;> rfl
      | transpose =>
        rw [mus] at h
        have h1 := one h
        rw [rel2abs] at h1
        split at h1
        · simp at h1
        · rename_i l2 m2 h2
          simp only [Except.ok.injEq, Prod.mk.injEq] at h1
          obtain ⟨us, e1, e2, e3, e4⟩ := ih 2 _ _ ht hno.2.1 h2
          exact ⟨_, wrap us e1, h1.1.symm, by rw [← h1.2, e3, musL, mus, e4, musL]; rfl⟩
      | key => exact plain (hno.1 rfl)
      | silent => exact plain (hno.1 rfl)
    | language l => exact plain (hno.1 rfl)
    | comment => exact plain (hno.1 rfl)
    | chordmode =>
      rw [mus] at h
      have h1 := one h
      rw [rel2abs] at h1
      split at h1
      · simp at h1
      · rename_i l2 m2 h2
        simp only [Except.ok.injEq, Prod.mk.injEq] at h1
        obtain ⟨us, e1, e2, e3, _⟩ := ih 0 _ _ (by simpa [Tidy] using ht) (by simp [firsts, NoRelL]) h2
        exact ⟨_, wrap us e1, by rw [← h1.1, e2], by rw [← h1.2, e3]; simp [musL, mus]⟩
    | other =>
      rw [mus] at h
      have h1 := one h
      rw [rel2abs] at h1
      split at h1
      · simp at h1
      · rename_i l2 m2 h2
        simp only [Except.ok.injEq, Prod.mk.injEq] at h1
        obtain ⟨us, e1, e2, e3, _⟩ := ih 0 _ _ (by simpa [Tidy] using ht) (by simp [firsts, NoRelL]) h2
        exact ⟨_, wrap us e1, by rw [← h1.1, e2], by rw [← h1.2, e3]; simp [musL, mus]⟩
theorem outL_mus (c : Cfg) (L : Str) : ∀ (ts : List Doc) (n : ℕ) (l' : Option Pitch) (ms : List Mus), NiceL ts → TidyL false ts → NoRelL (firsts n ts) →
    rel2absList c.pp c.firstAbs none (musL L n ts) = .ok (l', ms) →
    ∃ us, outL c L ts = .ok us ∧ l' = none ∧ ms = musL L n us ∧ (firsts n us).filterMap (note? L) = (firsts n ts).filterMap (note? L)
  | [], n, l', ms, _, _, _, h => by
    have e : musL L n [] = [] := by cases n <;> simp [musL]
    rw [e, rel2absList] at h
    simp only [Except.ok.injEq, Prod.mk.injEq] at h
    exact ⟨[], by rw [outL], h.1.symm, by rw [e]; exact h.2.symm, rfl⟩
  | t :: ts, n, l', ms, hn, ht, hf, h => by
    rw [NiceL] at hn
    rw [TidyL] at ht
    have one : ∀ us, outL c L ts = .ok us → NoRel t → outL c L (t :: ts) = .ok (t :: us) := by
      intro us h1 h2
      rw [outL, out_noRel c L t h2]
      simp only
      rw [h1]
      rfl
    cases n with
    | zero =>
      rw [musL] at h
      obtain ⟨l1, a', b', e1, e2, rfl⟩ := rel2absList_append _ _ _ _ _ _ _ h
      obtain ⟨a, a1, rfl, rfl⟩ := out_mus c L t l1 a' hn.1 ht.1 e1
      obtain ⟨b, b1, rfl, rfl, _⟩ := outL_mus c L ts 0 l' b' hn.2 ht.2 (by simp [firsts, NoRelL]) e2
      refine ⟨a ++ b, ?_, rfl, by rw [musL_append], by simp [firsts]⟩
      rw [outL, a1]
      simp only
      rw [b1]
    | succ n =>
      rw [musL] at h
      by_cases hk : t.lab = .comment
      · have hnr : NoRel t := by
          obtain ⟨i, l, ks⟩ := t
          rw [Doc.lab] at hk
          subst hk
          rw [NoRel]
          exact ⟨by simp, (nice_other hn.1 (by simp)).1 rfl⟩
        have ef : ∀ us, firsts (n + 1) (t :: us) = firsts (n + 1) us := by intro us; simp [firsts, real, hk]
        rw [if_pos hk] at h
        rw [ef] at hf
        obtain ⟨us, b1, rfl, rfl, b3⟩ := outL_mus c L ts (n + 1) l' ms hn.2 ht.2 hf h
        exact ⟨t :: us, one us b1 hnr, rfl, by rw [musL, if_pos hk], by rw [ef, ef, b3]⟩
      · have ef : ∀ us, firsts (n + 1) (t :: us) = t :: firsts n us := by intro us; simp [firsts, real, hk]
        rw [if_neg hk] at h
        rw [ef, NoRelL] at hf
        obtain ⟨us, b1, rfl, rfl, b3⟩ := outL_mus c L ts n l' ms hn.2 ht.2 hf.2 h
        exact ⟨t :: us, one us b1 hf.1, rfl, by rw [musL, if_neg hk], by rw [ef, ef, List.filterMap_cons, List.filterMap_cons, b3]⟩
end

end Quickly.Rel2abs
