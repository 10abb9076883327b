import Verif.TransposeDoc.Sim

/-! # The music of a transposed document is the transposed music -/

namespace Quickly.TransposeDoc

open Quickly.Pitch Quickly.Relative Quickly.Rel2abs Spec

theorem note_fit (c : Ctx) (n n' : Note) (rm : Bool) (s s' : Sink) (w : Walk) (h : consume c n s = .ok (s', n')) (hf : Fit rm s w) :
    ∃ w', Fit rm s' w' ∧ transposeMus c w (.note n) = .ok (w', .note n') := by
  rcases hf with ⟨o, rfl, rfl⟩ | ⟨last, rfl, rfl⟩
  · rw [consume] at h
    split at h
    · cases h
    · rename_i e
      cases h
      exact ⟨_, Or.inl ⟨o, rfl, rfl⟩, by rw [transposeMus, e]⟩
  · rw [consume] at h
    split at h
    · cases h
    · rename_i l1 n1 e
      cases h
      exact ⟨_, Or.inr ⟨l1, rfl, rfl⟩, by rw [transposeMus, e]⟩

/-- The walk is of the same kind. -/
def Alike : Walk → Walk → Prop
  | .pitches o, .pitches o' => o' = o
  | .relative _ flat, .relative _ flat' => flat' = flat
  | _, _ => False

theorem Alike.refl (w : Walk) : Alike w w := by cases w <;> rfl

theorem Alike.trans {a b d : Walk} (h : Alike a b) (h' : Alike b d) : Alike a d := by
  cases a <;> cases b <;> cases d <;> simp_all [Alike]

mutual
theorem mus_alike (c : Ctx) : ∀ (m m' : Mus) (w w' : Walk), transposeMus c w m = .ok (w', m') → Alike w w'
  | .note n, m', w, w', h => by
    rcases w with o | ⟨last, _ | _⟩ <;> rw [transposeMus] at h <;> split at h <;> cases h <;> rfl
  | .chord ns, m', w, w', h => by
    rcases w with o | ⟨last, _ | _⟩ <;> rw [transposeMus] at h <;> split at h <;> cases h <;> rfl
  | .check n, m', w, w', h => by
    rcases w with o | ⟨last, _ | _⟩ <;> rw [transposeMus] at h <;> split at h <;> cases h <;> rfl
  | .key n, m', w, w', h => by
    rw [transposeMus] at h
    split at h <;> cases h
    exact Alike.refl w
  | .group ms, m', w, w', h => by
    rw [transposeMus] at h
    split at h
    · cases h
    · rename_i e
      cases h
      exact list_alike c ms _ _ _ e
  | .relative none ms, m', w, w', h => by
    rw [transposeMus] at h
    split at h <;> cases h
    exact Alike.refl w
  | .relative (some s) ms, m', w, w', h => by
    rw [transposeMus] at h
    split at h
    · cases h
    · split at h <;> cases h
      exact Alike.refl w
  | .fixed s ms, m', w, w', h => by
    rw [transposeMus] at h
    split at h
    · cases h
    · split at h <;> cases h
      exact Alike.refl w
  | .absolute ms, m', w, w', h => by
    rw [transposeMus] at h
    split at h <;> cases h
    exact Alike.refl w
  | .apart k as ms, m', w, w', h => by
    rw [transposeMus] at h
    split at h
    · cases h
    · split at h
      · cases h
      · rename_i w2 ms2 e
        cases h
        have := list_alike c ms _ _ _ e
        cases w <;> cases k <;> cases w2 <;> simp_all [Alike, Walk.enter, Walk.leave]
theorem list_alike (c : Ctx) : ∀ (ms ms' : List Mus) (w w' : Walk), transposeList c w ms = .ok (w', ms') → Alike w w'
  | [], ms', w, w', h => by
    rw [transposeList] at h
    cases h
    exact Alike.refl w
  | m :: ms, ms', w, w', h => by
    rw [transposeList] at h
    split at h
    · cases h
    · rename_i e1
      split at h
      · cases h
      · rename_i e2
        cases h
        exact (mus_alike c m _ _ _ e1).trans (list_alike c ms _ _ _ e2)
end

theorem single (c : Ctx) (w w' : Walk) (m m' : Mus) (h : transposeMus c w m = .ok (w', m')) : transposeList c w [m] = .ok (w', [m']) := by
  rw [transposeList, h]
  rfl

theorem absolute_fit (c : Ctx) (w' : Walk) (ms ms' : List Mus) (h : transposeList c (.pitches 0) ms = .ok (w', ms')) (w0 : Walk) :
    transposeList c w0 [.absolute ms] = .ok (w0, [.absolute ms']) := by
  apply single
  rw [transposeMus, h]

/-- The note and its music. -/
theorem note_list (c : Ctx) (w w' w2 : Walk) (n n' : Note) (ms ms' : List Mus) (h : transposeMus c w (.note n) = .ok (w', .note n'))
    (h2 : transposeList c (.pitches 0) ms = .ok (w2, ms')) : transposeList c w [.note n, .absolute ms] = .ok (w', [.note n', .absolute ms']) := by
  rw [transposeList, h]
  simp only
  rw [absolute_fit c w2 ms ms' h2]

theorem clear_comment {b : Bool} {k : Doc} (h : Clear b k) (hc : k.lab = .comment) : ∃ i, k = .node i .comment [] := by
  obtain ⟨i, l, ks⟩ := k
  rw [Doc.lab] at hc
  subst hc
  rw [Clear] at h
  exact ⟨i, by rw [h]⟩

theorem comment_music (sel : Id → Bool) (L : Str) (i : Id) (n : ℕ) (ks : List Doc) :
    musL sel L n (.node i .comment [] :: ks) = musL sel L n ks := by
  cases n with
  | zero => simp [musL, mus, after, afterL]
  | succ n => simp [musL, Doc.lab, after, afterL]

theorem real_comment (i : Id) (gs ks : List Doc) : real (.node i .comment gs :: ks) = real ks := by
  simp [real, Doc.lab]

theorem real_other {k : Doc} (ks : List Doc) (h : k.lab ≠ .comment) : real (k :: ks) = k :: real ks := by
  unfold real
  rw [List.filter_cons, if_pos (by simpa using h)]

theorem musL_succ (sel : Id → Bool) (L : Str) (n : ℕ) {k : Doc} (ks : List Doc) (h : k.lab ≠ .comment) :
    musL sel L (n + 1) (k :: ks) = musL sel (after L k) n ks := by
  rw [musL, if_neg h]

/-- A pitch that is walked over. -/
theorem plain_visit (c : Ctx) (sel : Id → Bool) (rm : Bool) (s s' : Sink) (L L' : Str) (k k' : Doc) (hk : Plain k)
    (h : visit c sel rm s L k = .ok (s', L', k')) :
    ∃ n n', note? sel L k = some n ∧ note? sel L k' = some n' ∧ consume c n s = .ok (s', n') ∧ L' = L ∧ Plain k' := by
  obtain ⟨i, p, nd, chk, ks, rfl, hd⟩ := plain_note hk
  obtain ⟨s1, n, s2, L2, gs, e1, e2, e3, e4, -⟩ := visit_note _ _ _ _ _ _ _ _ _ _ _ h
  rw [list_dull c sel ks _ _ _ _ hd] at e2
  cases e2
  cases e3
  exact ⟨_, n, rfl, e4, e1, rfl, hd⟩

mutual
theorem sim (c : Ctx) (sel : Id → Bool) : ∀ (t : Doc) (rm : Bool) (s s' : Sink) (L L' : Str) (t' : Doc) (w : Walk), Clear false t →
    visit c sel rm s L t = .ok (s', L', t') → Fit rm s w →
    L' = after L t ∧ ∃ w', Fit rm s' w' ∧ transposeList c w (mus sel L t) = .ok (w', mus sel L t')
  | .node i l ks, rm, s, s', L, L', t', w, hc, h, hf => by
    cases l with
    | note p nd chk =>
      rw [Clear] at hc
      obtain ⟨s1, n, s2, L2, gs, e1, e2, e3, e4, -⟩ := visit_note _ _ _ _ _ _ _ _ _ _ _ h
      cases e3
      obtain ⟨a, w2, -, b⟩ := simL c sel ks false 0 _ _ _ _ _ (.pitches 0) hc e2 (Or.inl ⟨0, rfl, rfl⟩) trivial
      obtain ⟨w', f, g⟩ := note_fit c _ _ rm _ _ w e1 hf
      refine ⟨by rw [a, after]; simp, w', f, ?_⟩
      rw [setNote, note?] at e4
      rw [setNote, mus, mus]
      rw [Option.some.inj e4]
      exact note_list c _ _ _ _ _ _ _ g b.2.2
    | chord =>
      have hk : ClearL true ks := by simpa [Clear] using hc
      rw [visit] at h
      split at h
      · rename_i last e
        have : rm = true ∧ s = .relative last := by
          cases rm <;> cases s <;> simp [relLast] at e
          exact ⟨rfl, by rw [e]⟩
        obtain ⟨rfl, rfl⟩ := this
        have hw : w = .relative last false := by
          rcases hf with ⟨o, h1, -⟩ | ⟨l, h1, h2⟩
          · cases h1
          · cases h1; exact h2
        subst hw
        split at h
        · cases h
        · rename_i t1 first L1 gs e2
          cases h
          obtain ⟨a, b, d⟩ := insideL c sel ks _ _ _ _ _ _ hk e2
          refine ⟨by rw [a, after]; simp, .relative (first.getD last) false, Or.inr ⟨_, rfl, rfl⟩, ?_⟩
          rw [mus, mus, transposeList, transposeMus, chord_relative c last t1 first _ _ b]
          simp only
          rw [d]
        · cases h
      · rename_i e
        split at h
        · cases h
        · rename_i s1 L1 gs e2
          cases h
          obtain ⟨a, b, d⟩ := insideL c sel ks _ _ _ _ _ _ hk e2
          refine ⟨by rw [a, after]; simp, ?_⟩
          rcases hf with ⟨o, rfl, rfl⟩ | ⟨last, rfl, rfl⟩
          · obtain ⟨rfl, b2⟩ := all_pitches c o _ _ _ b
            refine ⟨.pitches o, Or.inl ⟨o, rfl, rfl⟩, ?_⟩
            rw [mus, mus, transposeList, transposeMus, b2]
            simp only
            rw [d]
          · cases rm with
            | true => simp [relLast] at e
            | false =>
              obtain ⟨rs, b2, rfl, b3⟩ := all_relative c last _ _ _ b
              refine ⟨.relative (lastOf last rs) true, Or.inr ⟨_, rfl, rfl⟩, ?_⟩
              rw [mus, mus, transposeList, Bool.not_false, transposeMus, b2]
              simp only
              rw [d, b3]
    | check =>
      have hk : FlatL ks := by simpa [Clear] using hc
      rw [visit] at h
      split at h
      · rename_i last e
        have : rm = true ∧ s = .relative last := by
          cases rm <;> cases s <;> simp [relLast] at e
          exact ⟨rfl, by rw [e]⟩
        obtain ⟨rfl, rfl⟩ := this
        have hw : w = .relative last false := by
          rcases hf with ⟨o, h1, -⟩ | ⟨l, h1, h2⟩
          · cases h1
          · cases h1; exact h2
        subst hw
        split at h
        · cases h
        · rename_i last1 L1 gs e2
          cases h
          obtain ⟨a, b, d⟩ := flatL_notes c sel ks _ _ _ _ _ _ hk e2
          refine ⟨by rw [b, after, d]; simp, ?_⟩
          obtain ⟨last', e3, e4⟩ := check_relative c _ _ _ _ a
          cases e3
          exact ⟨_, Or.inr ⟨_, rfl, rfl⟩, by rw [mus, mus]; exact e4⟩
        · cases h
      · rename_i e
        split at h
        · cases h
        · rename_i s1 L1 gs e2
          cases h
          obtain ⟨a, b, d⟩ := flatL_notes c sel ks _ _ _ _ _ _ hk e2
          refine ⟨by rw [b, after, d]; simp, ?_⟩
          rcases hf with ⟨o, rfl, rfl⟩ | ⟨last, rfl, rfl⟩
          · obtain ⟨rfl, b2⟩ := check_pitches c o _ _ _ a
            exact ⟨.pitches o, Or.inl ⟨o, rfl, rfl⟩, by rw [mus, mus]; exact b2⟩
          · cases rm with
            | true => simp [relLast] at e
            | false =>
              obtain ⟨last', rfl, b3⟩ := check_flat c last _ _ _ a
              exact ⟨.relative last' true, Or.inr ⟨_, rfl, rfl⟩, by rw [mus, mus]; exact b3⟩
    | relative =>
      obtain ⟨hfr, hk⟩ : Front .relative ks ∧ ClearL false ks := by simpa [Clear] using hc
      rw [visit] at h
      split at h
      · cases h
      · rename_i s1 L1 gs e
        cases h
        have hsm := skip_same c sel ks _ _ _ _ _ _ _ e
        have hlen : (real gs).length = (real ks).length := same_length sel _ _ (same_real sel _ _ hsm)
        by_cases hl : (ks.filter fun k => k.lab ≠ .comment).length > 1
        · rw [if_pos hl] at e
          have hl' : (real ks).length > 1 := hl
          have hst : start? sel L ks = (real ks).head?.bind (note? sel L) := by
            unfold start?
            rcases hr : real ks with _ | ⟨a, _ | ⟨b, r⟩⟩
            · rw [hr] at hl'; simp at hl'
            · rw [hr] at hl'; simp at hl'
            · rfl
          have hst' : start? sel L gs = (real gs).head?.bind (note? sel L) := by
            unfold start?
            rw [← hlen] at hl'
            rcases hr : real gs with _ | ⟨a, _ | ⟨b, r⟩⟩
            · rw [hr] at hl'; simp at hl'
            · rw [hr] at hl'; simp at hl'
            · rfl
          have hp : ∀ k n, (real ks).head? = some k → note? sel L k = some n → Plain k := by
            intro k n e1 e2
            rcases hr : real ks with _ | ⟨a, _ | ⟨b, r⟩⟩
            · rw [hr] at e1; cases e1
            · rw [hr] at hl'; simp at hl'
            · rw [hr] at e1
              cases e1
              rw [Front] at hfr
              obtain ⟨i, l, qs⟩ := k
              cases l with
              | note p nd chk =>
                rcases hfr _ _ _ hr with h1 | h1 | h1
                · exact h1
                · simp [Dull] at h1
                · exact absurd rfl (h1 _ _ _ _ _)
              | _ => simp [note?] at e2
          obtain ⟨a, hh⟩ := simR c sel ks _ _ _ _ _ hk hp e
          refine ⟨by rw [a, after]; simp, w, hf, ?_⟩
          rw [mus, mus, hst, hst']
          rcases hh with ⟨h1, h2, w', h3⟩ | ⟨k, k', n, n', last, h1, h2, h3, h4, h5, w', h6⟩
          · rw [h1, h2]
            apply single
            rw [transposeMus]
            simp only [Option.toList_none, List.length_nil]
            rw [h3]
          · rw [h1, h3]
            simp only [Option.bind_some]
            rw [h2, h4]
            apply single
            rw [transposeMus, h5]
            simp only [Option.toList_some, List.length_singleton]
            rw [h6]
        · rw [if_neg hl] at e
          have hl' : ¬ (real ks).length > 1 := hl
          have hst : start? sel L ks = none := by
            unfold start?
            rcases hr : real ks with _ | ⟨a, _ | ⟨b, r⟩⟩
            · rfl
            · rfl
            · rw [hr] at hl'; simp at hl'
          have hst' : start? sel L gs = none := by
            unfold start?
            rw [← hlen] at hl'
            rcases hr : real gs with _ | ⟨a, _ | ⟨b, r⟩⟩
            · rfl
            · rfl
            · rw [hr] at hl'; simp at hl'
          obtain ⟨a, w', -, b⟩ := simS c sel ks true _ _ _ _ _ (.relative ⟨firstPitch c.firstAbs, none⟩ false) hk e (Or.inr ⟨_, rfl, rfl⟩)
          refine ⟨by rw [a, after]; simp, w, hf, ?_⟩
          rw [mus, mus, hst, hst']
          apply single
          rw [transposeMus]
          simp only [Option.toList_none, List.length_nil]
          rw [b]
    | skip kd => cases kd with
      | absolute =>
        have hk : ClearL false ks := by simpa [Clear] using hc
        rw [visit] at h
        split at h
        · cases h
        · rename_i s1 L1 gs e
          cases h
          obtain ⟨a, w2, -, b⟩ := simL c sel ks false 0 _ _ _ _ _ (.pitches 0) hk e (Or.inl ⟨0, rfl, rfl⟩) trivial
          refine ⟨by rw [a, after]; simp, w, hf, ?_⟩
          rw [mus, mus]
          exact absolute_fit c _ _ _ b.2.2 w
      | key =>
        have hk : FlatL ks := by simpa [Clear] using hc
        rw [visit] at h
        split at h
        · cases h
        · rename_i s1 L1 gs e
          cases h
          obtain ⟨a, b, d⟩ := flatL_notes c sel ks _ _ _ _ _ _ hk e
          refine ⟨by rw [b, after, d]; simp, w, hf, ?_⟩
          rw [mus, mus]
          exact all_key c _ w _ _ a
      | fixed =>
        obtain ⟨hfr, hk⟩ : Front (.skip .fixed) ks ∧ ClearL false ks := by simpa [Clear] using hc
        rw [visit] at h
        split at h
        · cases h
        · rename_i s1 L1 gs e
          cases h
          have hp : ∀ k, (real ks).head? = some k → Plain k ∨ Dull k := by
            intro k e1
            rcases hr : real ks with _ | ⟨a, r⟩
            · rw [hr] at e1; cases e1
            · rw [hr] at e1
              cases e1
              rw [Front] at hfr
              exact hfr _ _ hr
          obtain ⟨a, hh⟩ := simF c sel ks _ _ _ _ hk hp e
          refine ⟨by rw [a, after]; simp, w, hf, ?_⟩
          rw [mus, mus]
          rcases hh with ⟨h1, h2, w', h3⟩ | ⟨n, n', h1, h2, h3, w', h4⟩
          · rw [h1, h2]
            exact absolute_fit c _ _ _ h3 w
          · rw [h1, h2]
            apply single
            rw [transposeMus, h3]
            simp only
            rw [h4]
      | transpose =>
        obtain ⟨hfr, hk⟩ : Front (.skip .transpose) ks ∧ ClearL false ks := by simpa [Clear] using hc
        rw [visit] at h
        split at h
        · cases h
        · rename_i s1 L1 gs e
          cases h
          have ha : Args 2 ks := by
            rw [Front] at hfr
            obtain ⟨a, b, r, rfl, p1, p2⟩ := hfr
            exact ⟨p1, p2, trivial⟩
          have hf' : Fit false s (w.enter .transpose) := by
            rcases hf with ⟨o, rfl, rfl⟩ | ⟨last, rfl, rfl⟩
            · exact Or.inl ⟨o, rfl, rfl⟩
            · exact Or.inr ⟨last, rfl, rfl⟩
          obtain ⟨a, w2, f2, b1, b2, b3⟩ := simL c sel ks false 2 _ _ _ _ _ (w.enter .transpose) hk e hf' ha
          refine ⟨by rw [a, after]; simp, w.leave w2, ?_, ?_⟩
          · rcases hf with ⟨o, rfl, rfl⟩ | ⟨last, rfl, rfl⟩
            · have hk := list_alike c _ _ _ _ b3
              rcases f2 with ⟨o2, rfl, rfl⟩ | ⟨last, rfl, rfl⟩
              · cases (show o2 = o from hk)
                exact Or.inl ⟨o, rfl, rfl⟩
              · exact hk.elim
            · have hk := list_alike c _ _ _ _ b3
              rcases f2 with ⟨o2, rfl, rfl⟩ | ⟨last2, rfl, rfl⟩
              · exact hk.elim
              · exact Or.inr ⟨last2, rfl, rfl⟩
          · rw [mus, mus, args_real 2 ks ha, args_real 2 gs b1]
            apply single
            rw [transposeMus, b2]
            simp only
            rw [b3]
      | silent =>
        have hk : NoLangL ks := by simpa [Clear] using hc
        rw [visit] at h
        cases h
        refine ⟨?_, w, hf, ?_⟩
        · rw [after, noLangL_after _ ks hk]; simp
        · rw [mus, transposeList]
    | language l =>
      rw [visit] at h
      cases h
      refine ⟨by rw [after], w, hf, ?_⟩
      rw [mus, transposeList]
    | comment =>
      have hk : ks = [] := by simpa [Clear] using hc
      subst hk
      rw [visit] at h
      · rw [list] at h
        cases h
        exact ⟨by simp [after, afterL], w, hf, by rw [mus, transposeList]⟩
      all_goals simp
    | chordmode =>
      have hk : ClearL false ks := by simpa [Clear] using hc
      rw [visit] at h
      · split at h
        · cases h
        · rename_i s1 L1 gs e
          cases h
          obtain ⟨a, w2, f2, b⟩ := simL c sel ks rm 0 _ _ _ _ _ w hk e hf trivial
          refine ⟨by rw [a, after]; simp, w2, f2, ?_⟩
          rw [mus, mus]
          apply single
          have he : w.enter .chordmode = w := by cases w <;> rfl
          rw [transposeMus, List.mapM_nil]
          simp only [pure, Except.pure]
          rw [he, b.2.2]
          have hl := list_alike c _ _ _ _ b.2.2
          have : w.leave w2 = w2 := by
            cases w <;> cases w2 <;> simp_all [Alike, Walk.leave]
          simp only [this]
      all_goals simp
    | other =>
      have hk : ClearL false ks := by simpa [Clear] using hc
      obtain ⟨s1, L1, gs, e1, e2⟩ := visit_other _ _ _ _ _ _ _ _ h
      cases e2
      obtain ⟨a, w2, f2, b⟩ := simL c sel ks rm 0 _ _ _ _ _ w hk e1 hf trivial
      refine ⟨by rw [a, after]; simp, w2, f2, ?_⟩
      rw [mus, mus]
      apply single
      rw [transposeMus, b.2.2]
theorem inside (c : Ctx) (sel : Id → Bool) : ∀ (t : Doc) (rm : Bool) (s s' : Sink) (L L' : Str) (t' : Doc), Clear true t →
    visit c sel rm s L t = .ok (s', L', t') →
    L' = after L t ∧ consumeAll c s (notesIn sel L t) = .ok (s', notesIn sel L t') ∧
      ∀ w, transposeList c w (extras sel L t) = .ok (w, extras sel L t')
  | .node i l ks, rm, s, s', L, L', t', hc, h => by
    cases l with
    | note p nd chk =>
      rw [Clear] at hc
      obtain ⟨s1, n, s2, L2, gs, e1, e2, e3, e4, -⟩ := visit_note _ _ _ _ _ _ _ _ _ _ _ h
      cases e3
      obtain ⟨a, w2, -, b⟩ := simL c sel ks false 0 _ _ _ _ _ (.pitches 0) hc e2 (Or.inl ⟨0, rfl, rfl⟩) trivial
      refine ⟨by rw [a, after]; simp, ?_, ?_⟩
      · rw [setNote_notes _ _ _ _ _ _ e4, notesIn, consumeAll, e1]
        rfl
      · intro w
        rw [setNote, extras, extras]
        exact absolute_fit c _ _ _ b.2.2 w
    | other =>
      have hk : ClearL true ks := by simpa [Clear] using hc
      obtain ⟨s1, L1, gs, e1, e2⟩ := visit_other _ _ _ _ _ _ _ _ h
      cases e2
      obtain ⟨a, b, d⟩ := insideL c sel ks _ _ _ _ _ _ hk e1
      refine ⟨by rw [a, after]; simp, ?_, ?_⟩
      · simpa [notesIn] using b
      · simpa [extras] using d
    | comment =>
      have hk : ks = [] := by simpa [Clear] using hc
      subst hk
      rw [visit] at h
      · rw [list] at h
        cases h
        exact ⟨by simp [after, afterL], rfl, fun w => rfl⟩
      all_goals simp
    | language l =>
      rw [visit] at h
      cases h
      exact ⟨by rw [after], rfl, fun w => rfl⟩
    | skip kd => cases kd with
      | silent =>
        have hk : NoLangL ks := by simpa [Clear] using hc
        rw [visit] at h
        cases h
        exact ⟨by rw [after, noLangL_after _ ks hk]; simp, rfl, fun w => rfl⟩
      | _ => simp [Clear] at hc
    | _ => simp [Clear] at hc
theorem simL (c : Ctx) (sel : Id → Bool) : ∀ (ks : List Doc) (rm : Bool) (n : ℕ) (s s' : Sink) (L L' : Str) (ks' : List Doc) (w : Walk), ClearL false ks →
    list c sel rm n s L ks = .ok (s', L', ks') → Fit rm s w → Args n ks →
    L' = afterL L ks ∧ ∃ w', Fit rm s' w' ∧ Args n ks' ∧
      ((ks.take n).filterMap (note? sel L)).mapM (transposeAbs c c.toct) = .ok ((ks'.take n).filterMap (note? sel L)) ∧
      transposeList c w (musL sel L n ks) = .ok (w', musL sel L n ks')
  | [], rm, n, s, s', L, L', ks', w, _, h, hf, ha => by
    rw [list] at h
    cases h
    refine ⟨rfl, w, hf, ha, by simp [pure, Except.pure], ?_⟩
    rw [musL, transposeList]
  | k :: ks, rm, n, s, s', L, L', ks', w, hc, h, hf, ha => by
    rw [ClearL] at hc
    cases n with
    | zero =>
      obtain ⟨s1, L1, k1, s2, L2, ks2, e1, e2, e3⟩ := list_cons _ _ _ _ _ _ _ _ h
      cases e3
      obtain ⟨a, w1, f1, b⟩ := sim c sel k rm _ _ _ _ _ w hc.1 e1 hf
      obtain ⟨a', w2, f2, -, -, b'⟩ := simL c sel ks rm 0 _ _ _ _ _ w1 hc.2 e2 f1 trivial
      refine ⟨by rw [a', a, afterL], w2, f2, trivial, by simp [pure, Except.pure], ?_⟩
      rw [musL, musL, same_after sel k k1 L (visit_same c sel k _ _ _ _ _ _ e1), ← a]
      exact transposeList_append c _ _ _ _ _ _ _ b b'
    | succ n =>
      rw [Args] at ha
      rw [list] at h
      split at h
      · cases h
      · rename_i s1 L1 k1 e1
        split at h
        · cases h
        · rename_i s2 L2 ks2 e2
          cases h
          obtain ⟨x, x', n1, n2, n3, rfl, n5⟩ := plain_visit c sel _ _ _ _ _ _ _ ha.1 e1
          obtain ⟨a', w2, f2, b1, b2, b3⟩ := simL c sel ks rm n _ _ _ _ _ w hc.2 e2 hf ha.2
          refine ⟨by rw [a', afterL, plain_after ha.1], w2, f2, ⟨n5, b1⟩, ?_, ?_⟩
          · rw [List.take_succ_cons, List.take_succ_cons, List.filterMap_cons_some n1, List.filterMap_cons_some n2]
            refine mapM_cons_ok _ _ _ _ _ ?_ b2
            rw [consume] at n3
            split at n3
            · cases n3
            · rename_i e5
              cases n3
              exact e5
          · rw [musL_succ _ _ _ _ (plain_lab ha.1), musL_succ _ _ _ _ (plain_lab n5), plain_after ha.1, plain_after n5]
            exact b3
theorem insideL (c : Ctx) (sel : Id → Bool) : ∀ (ks : List Doc) (rm : Bool) (s s' : Sink) (L L' : Str) (ks' : List Doc), ClearL true ks →
    list c sel rm 0 s L ks = .ok (s', L', ks') →
    L' = afterL L ks ∧ consumeAll c s (notesInL sel L ks) = .ok (s', notesInL sel L ks') ∧
      ∀ w, transposeList c w (extrasL sel L ks) = .ok (w, extrasL sel L ks')
  | [], rm, s, s', L, L', ks', _, h => by
    rw [list] at h
    cases h
    exact ⟨rfl, rfl, fun w => rfl⟩
  | k :: ks, rm, s, s', L, L', ks', hc, h => by
    rw [ClearL] at hc
    obtain ⟨s1, L1, k1, s2, L2, ks2, e1, e2, e3⟩ := list_cons _ _ _ _ _ _ _ _ h
    cases e3
    obtain ⟨a, b, d⟩ := inside c sel k rm _ _ _ _ _ hc.1 e1
    obtain ⟨a', b', d'⟩ := insideL c sel ks rm _ _ _ _ _ hc.2 e2
    have hs := same_after sel k k1 L (visit_same c sel k _ _ _ _ _ _ e1)
    refine ⟨by rw [a', a, afterL], ?_, ?_⟩
    · rw [notesInL, notesInL, hs, ← a]
      exact consumeAll_append c _ _ _ _ _ _ _ b b'
    · intro w
      rw [extrasL, extrasL, hs, ← a]
      exact transposeList_append c _ _ _ _ _ _ _ (d w) (d' w)
theorem simS (c : Ctx) (sel : Id → Bool) : ∀ (ks : List Doc) (rm : Bool) (s s' : Sink) (L L' : Str) (ks' : List Doc) (w : Walk), ClearL false ks →
    skip c sel none rm s L ks = .ok (s', L', ks') → Fit rm s w →
    L' = afterL L ks ∧ ∃ w', Fit rm s' w' ∧ transposeList c w (musL sel L 0 ks) = .ok (w', musL sel L 0 ks')
  | [], rm, s, s', L, L', ks', w, _, h, hf => by
    rw [skip] at h
    cases h
    exact ⟨rfl, w, hf, by rw [musL, transposeList]⟩
  | k :: ks, rm, s, s', L, L', ks', w, hc, h, hf => by
    rw [ClearL] at hc
    rw [skip] at h
    split at h
    · rename_i hk
      obtain ⟨i, rfl⟩ := clear_comment hc.1 hk
      split at h
      · cases h
      · rename_i s1 L1 gs e1
        cases h
        obtain ⟨a, w', f, b⟩ := simS c sel ks rm _ _ _ _ _ w hc.2 e1 hf
        exact ⟨by rw [a]; simp [afterL, after], w', f, by rw [comment_music, comment_music]; exact b⟩
    · split at h
      · cases h
      · rename_i e1
        have : first c sel none L k = .ok none := by
          obtain ⟨i, l, gs⟩ := k
          cases l <;> rfl
        rw [this] at e1
        cases e1
      · split at h
        · cases h
        · rename_i s1 L1 k1 e1
          split at h
          · cases h
          · rename_i s2 L2 gs e2
            cases h
            obtain ⟨a, w1, f1, b⟩ := sim c sel k rm _ _ _ _ _ w hc.1 e1 hf
            obtain ⟨a', w2, f2, b'⟩ := simS c sel ks rm _ _ _ _ _ w1 hc.2 e2 f1
            refine ⟨by rw [a', a, afterL], w2, f2, ?_⟩
            rw [musL, musL, same_after sel k k1 L (visit_same c sel k _ _ _ _ _ _ e1), ← a]
            exact transposeList_append c _ _ _ _ _ _ _ b b'
theorem simR (c : Ctx) (sel : Id → Bool) : ∀ (ks : List Doc) (last0 : Last) (s' : Sink) (L L' : Str) (ks' : List Doc), ClearL false ks →
    (∀ k n, (real ks).head? = some k → note? sel L k = some n → Plain k) →
    skip c sel (some .relative) true (.relative last0) L ks = .ok (s', L', ks') →
    L' = afterL L ks ∧
    (((real ks).head?.bind (note? sel L) = none ∧ (real ks').head?.bind (note? sel L) = none ∧
        ∃ w', transposeList c (.relative last0) (musL sel L 0 ks) = .ok (w', musL sel L 0 ks')) ∨
      ∃ k k' n n' last, (real ks).head? = some k ∧ note? sel L k = some n ∧ (real ks').head? = some k' ∧ note? sel L k' = some n' ∧
        transposeStart c n = .ok (last, n') ∧
        ∃ w', transposeList c (.relative last) (musL sel L 1 ks) = .ok (w', musL sel L 1 ks'))
  | [], last0, s', L, L', ks', _, _, h => by
    rw [skip] at h
    cases h
    exact ⟨rfl, Or.inl ⟨rfl, rfl, .relative last0, by rw [musL, transposeList]⟩⟩
  | k :: ks, last0, s', L, L', ks', hc, hp, h => by
    rw [ClearL] at hc
    have hsm := skip_same c sel (k :: ks) _ _ _ _ _ _ _ h
    rw [skip] at h
    split at h
    · rename_i hk
      obtain ⟨i, rfl⟩ := clear_comment hc.1 hk
      split at h
      · cases h
      · rename_i s1 L1 gs e1
        cases h
        rw [real_comment] at hp
        obtain ⟨a, b⟩ := simR c sel ks last0 _ _ _ _ hc.2 hp e1
        refine ⟨by rw [a]; simp [afterL, after], ?_⟩
        rw [real_comment, real_comment]
        simp only [comment_music]
        exact b
    · rename_i hk
      rw [real_other _ hk] at hp ⊢
      split at h
      · cases h
      · rename_i s1 k1 e1
        split at h
        · cases h
        · rename_i s2 L2 gs e2
          cases h
          obtain ⟨i, l, qs⟩ := k
          cases l with
          | note p nd chk =>
            have hpl := hp _ _ rfl rfl
            rw [first] at e1
            split at e1
            · cases e1
            · rename_i last n' e3
              cases e1
              obtain ⟨a, w', -, b⟩ := simS c sel ks true _ _ _ _ _ (.relative last false) hc.2 e2 (Or.inr ⟨_, rfl, rfl⟩)
              have hpl' : Plain (setNote i p n' qs) := hpl
              have m := transposeStart_moved c _ n' last e3
              refine ⟨by rw [a, afterL, plain_after hpl], Or.inr ⟨_, setNote i p n' qs, _, n', last, rfl, rfl, ?_, ?_, e3, w', ?_⟩⟩
              · rw [real_other _ (plain_lab hpl')]; rfl
              · obtain ⟨m1, m2, -, -⟩ := m
                rw [setNote, note?]
                obtain ⟨nd', chk', w', L'⟩ := n'
                simp only at m1 m2
                rw [m1, m2]
              · rw [musL_succ _ _ _ _ hk, musL_succ _ _ _ _ (plain_lab hpl'), plain_after hpl, plain_after hpl']
                exact b
          | _ => cases e1
      · rename_i e0
        split at h
        · cases h
        · rename_i s1 L1 k1 e1
          split at h
          · cases h
          · rename_i s2 L2 gs e2
            cases h
            obtain ⟨a, w1, f1, b⟩ := sim c sel k true _ _ _ _ _ (.relative last0 false) hc.1 e1 (Or.inr ⟨_, rfl, rfl⟩)
            obtain ⟨a', w2, f2, b'⟩ := simS c sel ks true _ _ _ _ _ w1 hc.2 e2 f1
            have hs1 := visit_same c sel k _ _ _ _ _ _ e1
            have hk1 : k1.lab ≠ .comment := fun e => hk ((same_lab sel k k1 hs1).1 e)
            have hn : note? sel L k = none := by
              obtain ⟨i, l, qs⟩ := k
              cases l with
              | note p nd chk =>
                rw [first] at e0
                split at e0 <;> cases e0
              | _ => rfl
            have hn1 : note? sel L k1 = none := by
              obtain ⟨i, l, qs⟩ := k
              obtain ⟨j, m, qs'⟩ := k1
              rw [Same] at hs1
              obtain ⟨-, rfl | ⟨-, p, nd, chk, nd', chk', rfl, rfl, -⟩, -⟩ := hs1
              · cases l with
                | note p nd chk => cases hn
                | _ => rfl
              · cases hn
            refine ⟨by rw [a', a, afterL], Or.inl ⟨hn, ?_, w2, ?_⟩⟩
            · rw [real_other _ hk1]; exact hn1
            · rw [musL, musL, same_after sel k k1 L hs1, ← a]
              exact transposeList_append c _ _ _ _ _ _ _ b b'
theorem simF (c : Ctx) (sel : Id → Bool) : ∀ (ks : List Doc) (s' : Sink) (L L' : Str) (ks' : List Doc), ClearL false ks →
    (∀ k, (real ks).head? = some k → Plain k ∨ Dull k) →
    skip c sel (some .fixed) false (.pitches 0) L ks = .ok (s', L', ks') →
    L' = afterL L ks ∧
    ((((real ks).take 1).filterMap (note? sel L) = [] ∧ ((real ks').take 1).filterMap (note? sel L) = [] ∧
        ∃ w', transposeList c (.pitches 0) (musL sel L 1 ks) = .ok (w', musL sel L 1 ks')) ∨
      ∃ n n', ((real ks).take 1).filterMap (note? sel L) = [n] ∧ ((real ks').take 1).filterMap (note? sel L) = [n'] ∧
        (if n.writable then transposeAbs c 0 n else .ok n) = .ok n' ∧
        ∃ w', transposeList c (.pitches (if n.writable then c.toct else 0)) (musL sel L 1 ks) = .ok (w', musL sel L 1 ks'))
  | [], s', L, L', ks', _, _, h => by
    rw [skip] at h
    cases h
    exact ⟨rfl, Or.inl ⟨rfl, rfl, .pitches 0, by rw [musL, transposeList]⟩⟩
  | k :: ks, s', L, L', ks', hc, hp, h => by
    rw [ClearL] at hc
    rw [skip] at h
    split at h
    · rename_i hk
      obtain ⟨i, rfl⟩ := clear_comment hc.1 hk
      split at h
      · cases h
      · rename_i s1 L1 gs e1
        cases h
        rw [real_comment] at hp
        obtain ⟨a, b⟩ := simF c sel ks _ _ _ _ hc.2 hp e1
        refine ⟨by rw [a]; simp [afterL, after], ?_⟩
        rw [real_comment, real_comment]
        simp only [comment_music]
        exact b
    · rename_i hk
      rw [real_other _ hk] at hp ⊢
      rcases hp k rfl with hpl | hd
      · obtain ⟨i, p, nd, chk, qs, rfl, hd⟩ := plain_note hpl
        split at h
        · cases h
        · rename_i s1 k1 e1
          split at h
          · cases h
          · rename_i s2 L2 gs e2
            cases h
            rw [first] at e1
            cases hw : sel i with
            | true =>
              rw [hw] at e1
              simp only [if_true] at e1
              split at e1
              · cases e1
              · rename_i n' e3
                cases e1
                obtain ⟨a, w', -, b⟩ := simS c sel ks false _ _ _ _ _ (.pitches c.toct) hc.2 e2 (Or.inl ⟨_, rfl, rfl⟩)
                have hpl' : Plain (setNote i p n' qs) := hpl
                obtain ⟨m1, m2, -, -⟩ := transposeAbs_moved c 0 _ n' e3
                refine ⟨by rw [a, afterL, plain_after hpl],
                  Or.inr ⟨{ node := nd, check := chk, writable := true, lang := L }, n', ?_, ?_, e3, w', ?_⟩⟩
                · simp [note?, hw]
                · rw [real_other _ (plain_lab hpl')]
                  obtain ⟨nd', chk', w', L'⟩ := n'
                  simp only at m1 m2
                  simp [note?, setNote, hw, m1, m2]
                · rw [musL_succ _ _ _ _ hk, musL_succ _ _ _ _ (plain_lab hpl'), plain_after hpl, plain_after hpl']
                  exact b
            | false =>
              rw [hw] at e1
              simp only [Bool.false_eq_true, if_false] at e1
              cases e1
              obtain ⟨a, w', -, b⟩ := simS c sel ks false _ _ _ _ _ (.pitches 0) hc.2 e2 (Or.inl ⟨_, rfl, rfl⟩)
              refine ⟨by rw [a, afterL, plain_after hpl],
                Or.inr ⟨{ node := nd, check := chk, writable := false, lang := L }, { node := nd, check := chk, writable := false, lang := L }, ?_, ?_, rfl, w', ?_⟩⟩
              · simp [note?, hw]
              · rw [real_other _ hk]
                simp [note?, hw]
              · rw [musL_succ _ _ _ _ hk, musL_succ _ _ _ _ hk, plain_after hpl]
                exact b
        · rename_i e1
          rw [first] at e1
          split at e1
          · split at e1 <;> cases e1
          · cases e1
      · rw [first_dull_fixed c sel L k hd] at h
        simp only at h
        split at h
        · cases h
        · rename_i s2 L2 gs e2
          cases h
          obtain ⟨a, w', -, b⟩ := simS c sel ks false _ _ _ _ _ (.pitches 0) hc.2 e2 (Or.inl ⟨_, rfl, rfl⟩)
          have hn : note? sel L k = none := by
            obtain ⟨i, l, qs⟩ := k
            cases l with
            | note p nd chk => simp [Dull] at hd
            | _ => rfl
          refine ⟨by rw [a, afterL, dull_after L k hd], Or.inl ⟨by simp [hn], ?_, w', ?_⟩⟩
          · rw [real_other _ hk]; simp [hn]
          · rw [musL_succ _ _ _ _ hk, musL_succ _ _ _ _ hk, dull_after L k hd]
            exact b
end

end Quickly.TransposeDoc
