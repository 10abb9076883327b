import Verif.TransposeDoc.Frame

/-! # The nodes and the music

What `Transpose` does to the nodes is what C24 says of the music. -/

namespace Quickly.TransposeDoc

open Quickly.Pitch Quickly.Relative Quickly.Rel2abs Spec

/-! ## Nodes without notes -/

theorem first_dull (c : Ctx) (sel : Id → Bool) (st : Option Start) (hst : st ≠ some .fixed) (L : Str) (k : Doc) (h : Dull k) :
    first c sel st L k = .ok none := by
  obtain ⟨i, l, ks⟩ := k
  cases l with
  | note p nd chk => simp [Dull] at h
  | _ =>
    rcases st with _ | (_ | _)
    · rfl
    · rfl
    · exact absurd rfl hst

theorem first_dull_fixed (c : Ctx) (sel : Id → Bool) (L : Str) (k : Doc) (h : Dull k) :
    first c sel (some .fixed) L k = .ok (some (.pitches 0, k)) := by
  obtain ⟨i, l, ks⟩ := k
  cases l with
  | note p nd chk => simp [Dull] at h
  | _ => rfl

mutual
theorem visit_dull (c : Ctx) (sel : Id → Bool) : ∀ (t : Doc) (rm : Bool) (s : Sink) (L : Str), Dull t → visit c sel rm s L t = .ok (s, L, t)
  | .node i l ks, rm, s, L, h => by
    cases l with
    | note p nd chk => simp [Dull] at h
    | language l => simp [Dull] at h
    | chord =>
      have hk : DullL ks := by simpa [Dull] using h
      rw [visit]
      split
      · rename_i last e
        rw [list_dull c sel ks _ _ _ _ hk]
        cases rm <;> cases s <;> simp [relLast] at e
        simp [e]
      · rw [list_dull c sel ks _ _ _ _ hk]
    | check =>
      have hk : DullL ks := by simpa [Dull] using h
      rw [visit]
      split
      · rename_i last e
        rw [list_dull c sel ks _ _ _ _ hk]
        cases rm <;> cases s <;> simp [relLast] at e
        simp [e]
      · rw [list_dull c sel ks _ _ _ _ hk]
    | relative =>
      have hk : DullL ks := by simpa [Dull] using h
      rw [visit, skip_dull c sel ks _ _ _ _ (by split <;> simp) hk]
    | skip k =>
      have hk : DullL ks := by simpa [Dull] using h
      cases k with
      | silent => rw [visit]
      | fixed =>
        rw [visit]
        rw [skipF_dull c sel ks _ _ hk]
      | _ => rw [visit, list_dull c sel ks _ _ _ _ hk]
    | _ =>
      have hk : DullL ks := by simpa [Dull] using h
      rw [visit]
      · rw [list_dull c sel ks _ _ _ _ hk]
      all_goals simp
theorem list_dull (c : Ctx) (sel : Id → Bool) : ∀ (ks : List Doc) (rm : Bool) (n : ℕ) (s : Sink) (L : Str), DullL ks →
    list c sel rm n s L ks = .ok (s, L, ks)
  | [], rm, n, s, L, _ => by rw [list]
  | k :: ks, rm, n, s, L, h => by
    rw [DullL] at h
    cases n with
    | zero => rw [list, visit_dull c sel k _ _ _ h.1]; simp only; rw [list_dull c sel ks _ _ _ _ h.2]
    | succ n => rw [list, visit_dull c sel k _ _ _ h.1]; simp only; rw [list_dull c sel ks _ _ _ _ h.2]
theorem skip_dull (c : Ctx) (sel : Id → Bool) : ∀ (ks : List Doc) (st : Option Start) (rm : Bool) (s : Sink) (L : Str), st ≠ some .fixed → DullL ks →
    skip c sel st rm s L ks = .ok (s, L, ks)
  | [], st, rm, s, L, _, _ => by rw [skip]
  | k :: ks, st, rm, s, L, hst, h => by
    rw [DullL] at h
    rw [skip]
    split
    · rw [skip_dull c sel ks _ _ _ _ hst h.2]
    · rw [first_dull c sel st hst L k h.1]
      simp only
      rw [visit_dull c sel k _ _ _ h.1]
      simp only
      rw [skip_dull c sel ks _ _ _ _ (by simp) h.2]
theorem skipF_dull (c : Ctx) (sel : Id → Bool) : ∀ (ks : List Doc) (rm : Bool) (L : Str), DullL ks →
    skip c sel (some .fixed) rm (.pitches 0) L ks = .ok (.pitches 0, L, ks)
  | [], rm, L, _ => by rw [skip]
  | k :: ks, rm, L, h => by
    rw [DullL] at h
    rw [skip]
    split
    · rw [skipF_dull c sel ks _ _ h.2]
    · rw [first_dull_fixed c sel L k h.1]
      simp only
      rw [skip_dull c sel ks _ _ _ _ (by simp) h.2]
end

mutual
theorem dull_after (L : Str) : ∀ t, Dull t → after L t = L
  | .node i l ks, h => by
    cases l with
    | language l => simp [Dull] at h
    | note p nd chk => simp [Dull] at h
    | _ => rw [after]; exact dullL_after L ks (by simpa [Dull] using h); all_goals simp
theorem dullL_after (L : Str) : ∀ ks, DullL ks → afterL L ks = L
  | [], _ => rfl
  | k :: ks, h => by
    rw [DullL] at h
    rw [afterL, dull_after L k h.1, dullL_after L ks h.2]
end

mutual
theorem noLang_after (L : Str) : ∀ t, NoLang t → after L t = L
  | .node i l ks, h => by
    cases l with
    | language l => simp [NoLang] at h
    | _ => rw [after]; exact noLangL_after L ks (by simpa [NoLang] using h); all_goals simp
theorem noLangL_after (L : Str) : ∀ ks, NoLangL ks → afterL L ks = L
  | [], _ => rfl
  | k :: ks, h => by
    rw [NoLangL] at h
    rw [afterL, noLang_after L k h.1, noLangL_after L ks h.2]
end

/-! ## Notes one after another -/

/-- The notes that a loop gets. -/
def consumeAll (c : Ctx) (s : Sink) : List Note → Py (Sink × List Note)
  | [] => .ok (s, [])
  | n :: ns => match consume c n s with
    | .error e => .error e
    | .ok (s, n) => match consumeAll c s ns with
      | .error e => .error e
      | .ok (s, ns) => .ok (s, n :: ns)

theorem consumeAll_append (c : Ctx) (s s1 s2 : Sink) (as bs as' bs' : List Note) (h1 : consumeAll c s as = .ok (s1, as'))
    (h2 : consumeAll c s1 bs = .ok (s2, bs')) : consumeAll c s (as ++ bs) = .ok (s2, as' ++ bs') := by
  induction as generalizing s as' with
  | nil =>
    rw [consumeAll] at h1
    cases h1
    exact h2
  | cons a as ih =>
    rw [consumeAll] at h1
    split at h1
    · cases h1
    · rename_i s3 a3 e3
      split at h1
      · cases h1
      · rename_i s4 as4 e4
        cases h1
        rw [List.cons_append, consumeAll, e3]
        simp only
        rw [ih _ _ e4]
        rfl

theorem consumeAll_cons (c : Ctx) (s s' : Sink) (n : Note) (ns ns' : List Note) (h : consumeAll c s (n :: ns) = .ok (s', ns')) :
    ∃ s1 n1 ns1, consume c n s = .ok (s1, n1) ∧ consumeAll c s1 ns = .ok (s', ns1) ∧ ns' = n1 :: ns1 := by
  rw [consumeAll] at h
  split at h
  · cases h
  · rename_i s1 n1 e1
    split at h
    · cases h
    · rename_i e2
      cases h
      exact ⟨s1, n1, _, e1, e2, rfl⟩

theorem mapM_cons_ok {α β : Type} (f : α → Py β) (a : α) (b : β) (l : List α) (l' : List β) (h1 : f a = .ok b) (h2 : l.mapM f = .ok l') :
    (a :: l).mapM f = .ok (b :: l') := by
  rw [List.mapM_cons, h1]
  simp [bind, Except.bind, h2, pure, Except.pure]

theorem all_pitches (c : Ctx) (o : ℤ) (s' : Sink) (ns ns' : List Note) (h : consumeAll c (.pitches o) ns = .ok (s', ns')) :
    s' = .pitches o ∧ ns.mapM (transposeAbs c o) = .ok ns' := by
  induction ns generalizing ns' with
  | nil => rw [consumeAll] at h; cases h; exact ⟨rfl, rfl⟩
  | cons n ns ih =>
    obtain ⟨s1, n1, ns1, e1, e2, rfl⟩ := consumeAll_cons _ _ _ _ _ _ h
    rw [consume] at e1
    split at e1
    · cases e1
    · rename_i e
      cases e1
      obtain ⟨a, b⟩ := ih _ e2
      exact ⟨a, mapM_cons_ok _ _ _ _ _ e b⟩

theorem all_key (c : Ctx) (s' : Sink) (w : Walk) (ns ns' : List Note) (h : consumeAll c .key ns = .ok (s', ns')) :
    transposeList c w (ns.map .key) = .ok (w, ns'.map .key) := by
  induction ns generalizing ns' with
  | nil => rw [consumeAll] at h; cases h; rfl
  | cons n ns ih =>
    obtain ⟨s1, n1, ns1, e1, e2, rfl⟩ := consumeAll_cons _ _ _ _ _ _ h
    rw [consume] at e1
    split at e1
    · cases e1
    · rename_i e
      cases e1
      rw [List.map_cons, transposeList, transposeMus, e]
      simp only
      rw [ih _ e2]
      rfl

theorem lastOf_cons (l l' : Last) (n : Note) (rs : List (Last × Note)) : lastOf l ((l', n) :: rs) = lastOf l' rs := by
  cases rs with
  | nil => rfl
  | cons r rs =>
    obtain ⟨x, hx⟩ : ∃ x, (r :: rs).getLast? = some x := ⟨_, List.getLast?_eq_some_getLast (List.cons_ne_nil r rs)⟩
    simp only [lastOf, List.getLast?_cons_cons, hx]
    rfl

theorem all_relative (c : Ctx) (last : Last) (s' : Sink) (ns ns' : List Note) (h : consumeAll c (.relative last) ns = .ok (s', ns')) :
    ∃ rs, transposeStack c last ns = .ok rs ∧ s' = .relative (lastOf last rs) ∧ ns' = rs.map Prod.snd := by
  induction ns generalizing ns' last with
  | nil => rw [consumeAll] at h; cases h; exact ⟨[], rfl, rfl, rfl⟩
  | cons n ns ih =>
    obtain ⟨s1, n1, ns1, e1, e2, rfl⟩ := consumeAll_cons _ _ _ _ _ _ h
    rw [consume] at e1
    split at e1
    · cases e1
    · rename_i l1 n2 e
      cases e1
      obtain ⟨rs, a, b, d⟩ := ih _ _ e2
      refine ⟨(l1, n1) :: rs, ?_, ?_, ?_⟩
      · rw [transposeStack, e]
        simp only
        rw [a]
      · rw [b, lastOf_cons]
      · rw [d]; rfl

theorem all_chord (c : Ctx) (top : Last) (first : Option Last) (s' : Sink) (ns ns' : List Note)
    (h : consumeAll c (.chord top first) ns = .ok (s', ns')) :
    ∃ rs t, transposeStack c top ns = .ok rs ∧ s' = .chord t (first.or (rs.head?.map Prod.fst)) ∧ ns' = rs.map Prod.snd := by
  induction ns generalizing ns' top first with
  | nil =>
    rw [consumeAll] at h
    cases h
    exact ⟨[], top, rfl, by cases first <;> rfl, rfl⟩
  | cons n ns ih =>
    obtain ⟨s1, n1, ns1, e1, e2, rfl⟩ := consumeAll_cons _ _ _ _ _ _ h
    rw [consume] at e1
    split at e1
    · cases e1
    · rename_i l1 n2 e
      cases e1
      obtain ⟨rs, t, a, b, d⟩ := ih _ _ _ e2
      refine ⟨(l1, n1) :: rs, t, ?_, ?_, ?_⟩
      · rw [transposeStack, e]
        simp only
        rw [a]
      · rw [b]
        cases first <;> rfl
      · rw [d]; rfl

theorem chord_relative (c : Ctx) (last t : Last) (first : Option Last) (ns ns' : List Note)
    (h : consumeAll c (.chord last none) ns = .ok (.chord t first, ns')) : transposeChord c last ns = .ok (first.getD last, ns') := by
  obtain ⟨rs, t', h1, h2, h3⟩ := all_chord c last none _ ns ns' h
  rw [transposeChord, h1]
  cases h2
  cases rs with
  | nil => rw [h3]; rfl
  | cons r rs => rw [h3]; rfl

theorem check_relative (c : Ctx) (last : Last) (s' : Sink) (ns ns' : List Note) (h : consumeAll c (.check last) ns = .ok (s', ns')) :
    ∃ last', s' = .check last' ∧ transposeList c (.relative last) (ns.map .check) = .ok (.relative last', ns'.map .check) := by
  induction ns generalizing ns' last with
  | nil => rw [consumeAll] at h; cases h; exact ⟨last, rfl, rfl⟩
  | cons n ns ih =>
    obtain ⟨s1, n1, ns1, e1, e2, rfl⟩ := consumeAll_cons _ _ _ _ _ _ h
    rw [consume] at e1
    split at e1
    · cases e1
    · rename_i l1 n2 e
      cases e1
      obtain ⟨last', a, b⟩ := ih _ _ e2
      refine ⟨last', a, ?_⟩
      rw [List.map_cons, transposeList, transposeMus, e]
      simp only
      rw [b]
      rfl

theorem check_flat (c : Ctx) (last : Last) (s' : Sink) (ns ns' : List Note) (h : consumeAll c (.relative last) ns = .ok (s', ns')) :
    ∃ last', s' = .relative last' ∧ transposeList c (.relative last true) (ns.map .check) = .ok (.relative last' true, ns'.map .check) := by
  induction ns generalizing ns' last with
  | nil => rw [consumeAll] at h; cases h; exact ⟨last, rfl, rfl⟩
  | cons n ns ih =>
    obtain ⟨s1, n1, ns1, e1, e2, rfl⟩ := consumeAll_cons _ _ _ _ _ _ h
    rw [consume] at e1
    split at e1
    · cases e1
    · rename_i l1 n2 e
      cases e1
      obtain ⟨last', a, b⟩ := ih _ _ e2
      refine ⟨last', a, ?_⟩
      rw [List.map_cons, transposeList, transposeMus, e]
      simp only
      rw [b]
      rfl

theorem check_pitches (c : Ctx) (o : ℤ) (s' : Sink) (ns ns' : List Note) (h : consumeAll c (.pitches o) ns = .ok (s', ns')) :
    s' = .pitches o ∧ transposeList c (.pitches o) (ns.map .check) = .ok (.pitches o, ns'.map .check) := by
  induction ns generalizing ns' with
  | nil => rw [consumeAll] at h; cases h; exact ⟨rfl, rfl⟩
  | cons n ns ih =>
    obtain ⟨s1, n1, ns1, e1, e2, rfl⟩ := consumeAll_cons _ _ _ _ _ _ h
    rw [consume] at e1
    split at e1
    · cases e1
    · rename_i e
      cases e1
      obtain ⟨a, b⟩ := ih _ e2
      refine ⟨a, ?_⟩
      rw [List.map_cons, transposeList, transposeMus, e]
      simp only
      rw [b]
      rfl

/-- Music and more music. -/
theorem transposeList_append (c : Ctx) (w w1 w2 : Walk) (as bs as' bs' : List Mus) (h1 : transposeList c w as = .ok (w1, as'))
    (h2 : transposeList c w1 bs = .ok (w2, bs')) : transposeList c w (as ++ bs) = .ok (w2, as' ++ bs') := by
  induction as generalizing w as' with
  | nil => rw [transposeList] at h1; cases h1; exact h2
  | cons a as ih =>
    rw [transposeList] at h1
    split at h1
    · cases h1
    · rename_i w3 a3 e3
      split at h1
      · cases h1
      · rename_i w4 as4 e4
        cases h1
        rw [List.cons_append, transposeList, e3]
        simp only
        rw [ih _ _ e4]
        rfl

/-! ## Notes with nothing in them -/

/-- A node whose children are looked at. -/
theorem visit_other (c : Ctx) (sel : Id → Bool) (rm : Bool) (s : Sink) (L : Str) (i : Id) (ks : List Doc) (r : Sink × Str × Doc)
    (h : visit c sel rm s L (.node i .other ks) = .ok r) :
    ∃ s' L' ks', list c sel rm 0 s L ks = .ok (s', L', ks') ∧ r = (s', L', .node i .other ks') := by
  rw [visit] at h
  · split at h
    · cases h
    · rename_i e; cases h; exact ⟨_, _, _, e, rfl⟩
  all_goals simp

theorem visit_note (c : Ctx) (sel : Id → Bool) (rm : Bool) (s : Sink) (L : Str) (i : Id) (p : Bool) (nd : PNode) (chk : Option ℤ) (ks : List Doc)
    (r : Sink × Str × Doc) (h : visit c sel rm s L (.node i (.note p nd chk) ks) = .ok r) :
    ∃ s' n s2 L' ks', consume c { node := nd, check := chk, writable := sel i, lang := L } s = .ok (s', n) ∧
      list c sel false 0 (.pitches 0) L ks = .ok (s2, L', ks') ∧ r = (s', L', setNote i p n ks') ∧
      note? sel L (setNote i p n ks') = some n ∧ n.lang = L ∧ n.writable = sel i := by
  rw [visit] at h
  split at h
  · cases h
  · rename_i s1 n e1
    split at h
    · cases h
    · rename_i s2 L2 gs e2
      cases h
      obtain ⟨m1, m2, -, -⟩ := consume_moved c _ n s s1 e1
      refine ⟨_, n, _, _, _, e1, e2, rfl, ?_, m2, m1⟩
      rw [setNote, note?]
      obtain ⟨nd', chk', w', L'⟩ := n
      simp only at m1 m2
      rw [m1, m2]

/-- The notes of a list that has been visited. -/
theorem list_cons (c : Ctx) (sel : Id → Bool) (rm : Bool) (s : Sink) (L : Str) (k : Doc) (ks : List Doc) (r : Sink × Str × List Doc)
    (h : list c sel rm 0 s L (k :: ks) = .ok r) :
    ∃ s1 L1 k1 s2 L2 ks2, visit c sel rm s L k = .ok (s1, L1, k1) ∧ list c sel rm 0 s1 L1 ks = .ok (s2, L2, ks2) ∧ r = (s2, L2, k1 :: ks2) := by
  rw [list] at h
  split at h
  · cases h
  · rename_i s1 L1 k1 e1
    split at h
    · cases h
    · rename_i e2
      cases h
      exact ⟨s1, L1, k1, _, _, _, e1, e2, rfl⟩

theorem setNote_notes (sel : Id → Bool) (L : Str) (i : Id) (p : Bool) (n : Note) (ks : List Doc) (h : note? sel L (setNote i p n ks) = some n) :
    notesIn sel L (setNote i p n ks) = [n] := by
  rw [setNote, note?] at h
  rw [setNote, notesIn]
  simpa using h

mutual
theorem flat_notes (c : Ctx) (sel : Id → Bool) : ∀ (t : Doc) (rm : Bool) (s s' : Sink) (L L' : Str) (t' : Doc), Flat t →
    visit c sel rm s L t = .ok (s', L', t') → consumeAll c s (notesIn sel L t) = .ok (s', notesIn sel L t') ∧ L' = L ∧ after L t = L
  | .node i l ks, rm, s, s', L, L', t', hf, h => by
    cases l with
    | note p nd chk =>
      have hk : DullL ks := by simpa [Flat] using hf
      obtain ⟨s1, n, s2, L2, gs, e1, e2, e3, e4, -⟩ := visit_note _ _ _ _ _ _ _ _ _ _ _ h
      rw [list_dull c sel ks _ _ _ _ hk] at e2
      cases e2
      cases e3
      refine ⟨?_, rfl, ?_⟩
      · rw [setNote_notes _ _ _ _ _ _ e4, notesIn, consumeAll, e1]
        rfl
      · rw [after]; exact dullL_after _ ks hk; simp
    | comment =>
      have hk : ks = [] := by simpa [Flat] using hf
      subst hk
      rw [visit] at h
      · rw [list] at h
        cases h
        exact ⟨rfl, rfl, rfl⟩
      all_goals simp
    | other =>
      have hk : FlatL ks := by simpa [Flat] using hf
      obtain ⟨s1, L1, gs, e1, e2⟩ := visit_other _ _ _ _ _ _ _ _ h
      cases e2
      obtain ⟨a, b, d⟩ := flatL_notes c sel ks _ _ _ _ _ _ hk e1
      refine ⟨?_, b, ?_⟩
      · simpa [notesIn] using a
      · rw [after]; exact d; simp
    | _ => simp [Flat] at hf
theorem flatL_notes (c : Ctx) (sel : Id → Bool) : ∀ (ks : List Doc) (rm : Bool) (s s' : Sink) (L L' : Str) (ks' : List Doc), FlatL ks →
    list c sel rm 0 s L ks = .ok (s', L', ks') → consumeAll c s (notesInL sel L ks) = .ok (s', notesInL sel L ks') ∧ L' = L ∧ afterL L ks = L
  | [], rm, s, s', L, L', ks', _, h => by
    rw [list] at h
    cases h
    exact ⟨rfl, rfl, rfl⟩
  | k :: ks, rm, s, s', L, L', ks', hf, h => by
    rw [FlatL] at hf
    obtain ⟨s1, L1, k1, s2, L2, ks2, e1, e2, e3⟩ := list_cons _ _ _ _ _ _ _ _ h
    cases e3
    obtain ⟨a, b, d⟩ := flat_notes c sel k _ _ _ _ _ _ hf.1 e1
    subst b
    obtain ⟨a', b', d'⟩ := flatL_notes c sel ks _ _ _ _ _ _ hf.2 e2
    refine ⟨?_, b', by rw [afterL, d, d']⟩
    have hs := same_after sel k k1 L1 (visit_same c sel k _ _ _ _ _ _ e1)
    rw [notesInL, notesInL, hs, d]
    exact consumeAll_append c _ _ _ _ _ _ _ a a'
end

/-! ## Where the code is -/

/-- The loop and the walk over the music. -/
def Fit (rm : Bool) (s : Sink) (w : Walk) : Prop :=
  (∃ o, s = .pitches o ∧ w = .pitches o) ∨ ∃ last, s = .relative last ∧ w = .relative last (!rm)

/-- The first `n` nodes are pitches. -/
def Args : ℕ → List Doc → Prop
  | 0, _ => True
  | n + 1, k :: ks => Plain k ∧ Args n ks
  | _ + 1, [] => False

theorem plain_note {k : Doc} (h : Plain k) : ∃ i p nd chk ks, k = .node i (.note p nd chk) ks ∧ DullL ks := by
  obtain ⟨i, l, ks⟩ := k
  cases l with
  | note p nd chk => exact ⟨i, p, nd, chk, ks, rfl, h⟩
  | _ => exact absurd h (by simp [Plain])

theorem plain_after {k : Doc} (h : Plain k) (L : Str) : after L k = L := by
  obtain ⟨i, p, nd, chk, ks, rfl, hk⟩ := plain_note h
  rw [after]
  · exact dullL_after L ks hk
  · simp

theorem plain_lab {k : Doc} (h : Plain k) : k.lab ≠ .comment := by
  obtain ⟨i, p, nd, chk, ks, rfl, hk⟩ := plain_note h
  simp [Doc.lab]

theorem same_lab (sel : Id → Bool) (t t' : Doc) (h : Same sel t t') : t'.lab = .comment ↔ t.lab = .comment := by
  obtain ⟨i, l, ks⟩ := t
  obtain ⟨j, m, gs⟩ := t'
  rw [Same] at h
  obtain ⟨-, rfl | ⟨-, p, nd, chk, nd', chk', rfl, rfl, -⟩, -⟩ := h
  · exact Iff.rfl
  · simp [Doc.lab]

theorem same_real (sel : Id → Bool) : ∀ (ks ks' : List Doc), SameL sel ks ks' → SameL sel (real ks) (real ks')
  | [], [], _ => trivial
  | [], _ :: _, h => by simp [SameL] at h
  | _ :: _, [], h => by simp [SameL] at h
  | k :: ks, g :: gs, h => by
    rw [SameL] at h
    have ih := same_real sel ks gs h.2
    have hl := same_lab sel k g h.1
    unfold real at ih ⊢
    by_cases hc : k.lab = .comment
    · have hg := hl.2 hc
      simpa [List.filter_cons, hc, hg] using ih
    · have hg : g.lab ≠ .comment := fun e => hc (hl.1 e)
      simp only [List.filter_cons, hc, hg, ne_eq, not_false_eq_true, decide_true, if_true]
      exact ⟨h.1, ih⟩

theorem same_length (sel : Id → Bool) : ∀ (ks ks' : List Doc), SameL sel ks ks' → ks'.length = ks.length
  | [], [], _ => rfl
  | [], _ :: _, h => by simp [SameL] at h
  | _ :: _, [], h => by simp [SameL] at h
  | k :: ks, g :: gs, h => by
    rw [SameL] at h
    simp [same_length sel ks gs h.2]

theorem args_real : ∀ (n : ℕ) (ks : List Doc), Args n ks → (real ks).take n = ks.take n
  | 0, _, _ => by simp
  | n + 1, [], h => h.elim
  | n + 1, k :: ks, h => by
    rw [Args] at h
    have e : real (k :: ks) = k :: real ks := by
      unfold real
      rw [List.filter_cons, if_pos (by simpa using plain_lab h.1)]
    rw [e, List.take_succ_cons, List.take_succ_cons, args_real n ks h.2]

end Quickly.TransposeDoc
