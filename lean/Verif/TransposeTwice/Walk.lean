import Verif.TransposeTwice.Lemmas

/-! # The three walks over a document -/

namespace Quickly.TransposeTwice

open Quickly.Pitch Quickly.Relative Quickly.TransposeDoc Quickly.TransposeDoc.Spec Quickly.TransposeBack.Spec Spec
open Quickly.Rel2abs (Doc Lab Id)
open Quickly.TransposeBack (same_comment sameL_real first_none)

/-- The notes that are selected are as they should be. -/
abbrev Sel (c c2 c3 : Ctx) (sel : Id → Bool) : Id → Str → PNode → Option ℤ → Prop :=
  fun i L nd chk => sel i = true → Follows c.pp c.tr c2.tr c3.tr L nd chk

theorem tri_relLast {s s2 s3 : Sink} (h : Tri s s2 s3) (rm : Bool) :
    (relLast rm s = none ∧ relLast rm s2 = none ∧ relLast rm s3 = none) ∨
    ∃ l l2 l3, relLast rm s = some l ∧ relLast rm s2 = some l2 ∧ relLast rm s3 = some l3 ∧ TriLast l l2 l3 := by
  cases rm
  · left; refine ⟨?_, ?_, ?_⟩ <;> rfl
  · cases s <;> cases s2 <;> cases s3 <;> simp only [Tri] at h
    · left; refine ⟨?_, ?_, ?_⟩ <;> rfl
    · left; refine ⟨?_, ?_, ?_⟩ <;> rfl
    · right; exact ⟨_, _, _, rfl, rfl, rfl, h⟩
    · left; refine ⟨?_, ?_, ?_⟩ <;> rfl
    · left; refine ⟨?_, ?_, ?_⟩ <;> rfl

theorem first_twice {c c2 c3 : Ctx} (P : Trip c c2 c3) (sel : Id → Bool) (st : Option Start) (L : Str) (k k' : Doc) (s : Sink) (r : Option (Sink × Doc))
    (hn : NotesAre (Sel c c2 c3 sel) L k) (h : first c sel st L k = .ok (some (s, k'))) (h2 : first c2 sel st L k' = .ok r) :
    ∃ s2 k2 s3, r = some (s2, k2) ∧ first c3 sel st L k = .ok (some (s3, k2)) ∧ Tri s s2 s3 := by
  obtain ⟨i, l, ks⟩ := k
  cases l with
  | note p nd chk =>
    have hr : sel i = true → Follows c.pp c.tr c2.tr c3.tr L nd chk := by
      simp only [NotesAre] at hn; exact hn.1
    rcases st with _ | (_ | _)
    · cases h
    · simp only [first] at h
      split at h
      · cases h
      · rename_i last n e
        cases h
        have hm := transposeStart_moved c _ _ _ e
        obtain ⟨n1, n2, n3, n4⟩ := n
        obtain ⟨m1, m2, -, -⟩ := hm
        simp only at m1 m2
        subst m1 m2
        simp only [setNote, first] at h2
        split at h2
        · cases h2
        · rename_i e2
          cases h2
          obtain ⟨l3, a, b⟩ := start_twice P _ _ _ _ _ (by exact hr) e e2
          refine ⟨_, _, .relative l3, rfl, ?_, b⟩
          simp only [setNote, first, a]
    · simp only [first] at h
      split at h
      · rename_i hs
        split at h
        · cases h
        · rename_i n e
          cases h
          have hm := transposeAbs_moved c _ _ _ e
          obtain ⟨n1, n2, n3, n4⟩ := n
          obtain ⟨m1, m2, -, -⟩ := hm
          simp only at m1 m2
          subst m1 m2
          simp only [setNote, first, hs, if_true] at h2
          split at h2
          · cases h2
          · rename_i e2
            cases h2
            have a := abs_twice P _ _ _ 0 0 (fun _ => hr hs) e e2
            refine ⟨_, _, .pitches c3.toct, rfl, ?_, P.toct⟩
            simp only [add_zero] at a
            simp only [setNote, first, a, hs, if_true]
      · rename_i hs
        cases h
        simp only [first, hs] at h2
        simp only [Bool.false_eq_true, if_false] at h2
        cases h2
        refine ⟨_, _, .pitches 0, rfl, ?_, by simp [Tri]⟩
        simp only [first, hs]
        simp
  | _ =>
    rcases st with _ | (_ | _)
    · cases h
    · cases h
    · cases h
      cases h2
      exact ⟨_, _, .pitches 0, rfl, rfl, by simp [Tri]⟩

mutual
theorem visit_twice {c c2 c3 : Ctx} (P : Trip c c2 c3) (sel : Id → Bool) : ∀ (t : Doc) (rm : Bool) (s s' s2 s2' s3 : Sink) (L L' L2 : Str) (t' t2 : Doc),
    NotesAre (Sel c c2 c3 sel) L t → Tri s s2 s3 → visit c sel rm s L t = .ok (s', L', t') → visit c2 sel rm s2 L t' = .ok (s2', L2, t2) →
    L' = after L t ∧ L2 = L' ∧ ∃ s3', visit c3 sel rm s3 L t = .ok (s3', L', t2) ∧ Tri s' s2' s3'
  | .node i l ks, rm, s, s', s2, s2', s3, L, L', L2, t', t2, hn, hs, h, h2 => by
    cases l with
    | note p nd chk =>
      rw [NotesAre] at hn
      rw [visit] at h
      split at h
      · cases h
      · rename_i s1 n e1
        split at h
        · cases h
        · rename_i e2
          cases h
          have hm := consume_moved c _ _ _ _ e1
          obtain ⟨n1, n2, n3, n4⟩ := n
          obtain ⟨m1, m2, -, -⟩ := hm
          simp only at m1 m2
          subst m1 m2
          rw [setNote, visit] at h2
          split at h2
          · cases h2
          · rename_i f1
            split at h2
            · cases h2
            · rename_i f2
              cases h2
              obtain ⟨rfl, rfl, s4, a2, -⟩ := list_twice P sel ks false 0 (.pitches 0) _ (.pitches 0) _ (.pitches 0) _ _ _ _ _ hn.2 (by simp [Tri]) e2 f2
              obtain ⟨s5, a1, b1⟩ := consume_twice P _ _ _ _ _ _ _ _ (by exact hn.1) hs e1 f1
              refine ⟨by rw [after]; simp, rfl, s5, ?_, b1⟩
              rw [visit, a1]
              simp only
              rw [a2]
    | chord =>
      have hk : NotesAreL (Sel c c2 c3 sel) L ks := by simpa [NotesAre] using hn
      rw [visit] at h
      rcases tri_relLast hs rm with ⟨r1, r2, r3⟩ | ⟨l, l2, l3, r1, r2, r3, hl⟩
      · rw [r1] at h
        simp only at h
        split at h
        · cases h
        · rename_i e
          cases h
          rw [visit, r2] at h2
          simp only at h2
          split at h2
          · cases h2
          · rename_i f
            cases h2
            obtain ⟨rfl, rfl, s4, a2, b2⟩ := list_twice P sel ks rm 0 s _ s2 _ s3 L _ _ _ _ hk hs e f
            refine ⟨by rw [after]; simp, rfl, s4, ?_, b2⟩
            rw [visit, r3]
            simp only
            rw [a2]
      · rw [r1] at h
        simp only at h
        split at h
        · cases h
        · rename_i q1 _ _ e
          cases h
          rw [visit, r2] at h2
          simp only at h2
          split at h2
          · cases h2
          · rename_i q2 _ _ f
            cases h2
            obtain ⟨rfl, rfl, s4, a2, b2⟩ := list_twice P sel ks false 0 (.chord l none) _ (.chord l2 none) _ (.chord l3 none) L _ _ _ _ hk ⟨hl, trivial⟩ e f
            cases s4 with
            | chord t3 f3 =>
              refine ⟨by rw [after]; simp, rfl, .relative (f3.getD l3), ?_, ?_⟩
              · rw [visit, r3]
                simp only
                rw [a2]
              · simp only [Tri] at b2 ⊢
                cases q1 <;> cases q2 <;> cases f3 <;> simp only at b2 ⊢ <;> first | exact hl | exact b2.2 | exact b2.2.elim
            | _ => simp only [Tri] at b2
          · cases h2
        · cases h
    | check =>
      have hk : NotesAreL (Sel c c2 c3 sel) L ks := by simpa [NotesAre] using hn
      rw [visit] at h
      rcases tri_relLast hs rm with ⟨r1, r2, r3⟩ | ⟨l, l2, l3, r1, r2, r3, hl⟩
      · rw [r1] at h
        simp only at h
        split at h
        · cases h
        · rename_i e
          cases h
          rw [visit, r2] at h2
          simp only at h2
          split at h2
          · cases h2
          · rename_i f
            cases h2
            obtain ⟨rfl, rfl, s4, a2, b2⟩ := list_twice P sel ks rm 0 s _ s2 _ s3 L _ _ _ _ hk hs e f
            refine ⟨by rw [after]; simp, rfl, s4, ?_, b2⟩
            rw [visit, r3]
            simp only
            rw [a2]
      · rw [r1] at h
        simp only at h
        split at h
        · cases h
        · rename_i e
          cases h
          rw [visit, r2] at h2
          simp only at h2
          split at h2
          · cases h2
          · rename_i f
            cases h2
            obtain ⟨rfl, rfl, s4, a2, b2⟩ := list_twice P sel ks false 0 (.check l) _ (.check l2) _ (.check l3) L _ _ _ _ hk hl e f
            cases s4 with
            | check t3 =>
              refine ⟨by rw [after]; simp, rfl, .relative t3, ?_, b2⟩
              rw [visit, r3]
              simp only
              rw [a2]
            | _ => simp only [Tri] at b2
          · cases h2
        · cases h
    | relative =>
      rw [NotesAre] at hn
      rw [visit] at h
      split at h
      · cases h
      · rename_i e
        cases h
        rw [visit, sameL_real ks _ (skip_same c sel ks _ _ _ _ _ _ _ e)] at h2
        split at h2
        · cases h2
        · rename_i f
          cases h2
          obtain ⟨rfl, rfl, s4, a2⟩ := skip_twice P sel ks _ true (.relative ⟨firstPitch c.firstAbs, none⟩) _
            (.relative ⟨firstPitch c2.firstAbs, none⟩) _ (.relative ⟨firstPitch c3.firstAbs, none⟩) L _ _ _ _ (by split <;> simp) (fun _ => hn.1) hn.2
            ⟨0, 0, by rw [P.fa2]; simp [down_zero, Last.prev], by rw [P.fa3]; simp [down_zero], by rw [P.fa2, P.fa3]; simp [down_zero, Last.prev]⟩ e f
          refine ⟨by rw [after]; simp, rfl, s3, ?_, hs⟩
          rw [visit, a2]
    | language l =>
      rw [visit] at h
      cases h
      rw [visit] at h2
      cases h2
      exact ⟨by rw [after], rfl, s3, by rw [visit], hs⟩
    | skip kd => cases kd with
      | silent =>
        have hk : NoLangL ks := by simpa [NotesAre] using hn
        rw [visit] at h
        cases h
        rw [visit] at h2
        cases h2
        exact ⟨by rw [after, noLangL_after _ _ hk]; simp, rfl, s3, by rw [visit], hs⟩
      | fixed =>
        rw [NotesAre] at hn
        rw [visit] at h
        split at h
        · cases h
        · rename_i e
          cases h
          rw [visit] at h2
          split at h2
          · cases h2
          · rename_i f
            cases h2
            obtain ⟨rfl, rfl, s4, a2⟩ := skip_twice P sel ks (some .fixed) false (.pitches 0) _ (.pitches 0) _ (.pitches 0) L _ _ _ _ (fun _ => hn.1)
              (by simp) hn.2 (by simp [Tri]) e f
            refine ⟨by rw [after]; simp, rfl, s3, ?_, hs⟩
            rw [visit, a2]
      | key =>
        have hk : NotesAreL (Sel c c2 c3 sel) L ks := by simpa [NotesAre] using hn
        simp only [visit] at h
        split at h
        · cases h
        · rename_i e
          cases h
          simp only [visit] at h2
          split at h2
          · cases h2
          · rename_i f
            cases h2
            obtain ⟨rfl, rfl, s4, a2, b2⟩ := list_twice P sel ks false 0 .key _ .key _ .key L _ _ _ _ hk trivial e f
            refine ⟨by rw [after]; simp, rfl, s3, ?_, hs⟩
            simp only [visit]
            rw [a2]
      | absolute =>
        have hk : NotesAreL (Sel c c2 c3 sel) L ks := by simpa [NotesAre] using hn
        simp only [visit] at h
        split at h
        · cases h
        · rename_i e
          cases h
          simp only [visit] at h2
          split at h2
          · cases h2
          · rename_i f
            cases h2
            obtain ⟨rfl, rfl, s4, a2, b2⟩ := list_twice P sel ks false 0 (.pitches 0) _ (.pitches 0) _ (.pitches 0) L _ _ _ _ hk (by simp [Tri]) e f
            refine ⟨by rw [after]; simp, rfl, s3, ?_, hs⟩
            simp only [visit]
            rw [a2]
      | transpose =>
        have hk : NotesAreL (Sel c c2 c3 sel) L ks := by simpa [NotesAre] using hn
        simp only [visit] at h
        split at h
        · cases h
        · rename_i e
          cases h
          simp only [visit] at h2
          split at h2
          · cases h2
          · rename_i f
            cases h2
            obtain ⟨rfl, rfl, s4, a2, b2⟩ := list_twice P sel ks false 2 s _ s2 _ s3 L _ _ _ _ hk hs e f
            refine ⟨by rw [after]; simp, rfl, s4, ?_, b2⟩
            simp only [visit]
            rw [a2]
    | comment =>
      have hq : ks = [] := by simpa [NotesAre] using hn
      subst hq
      simp [visit, list] at h
      obtain ⟨rfl, rfl, rfl⟩ := h
      simp [visit, list] at h2
      obtain ⟨rfl, rfl, rfl⟩ := h2
      exact ⟨by simp [after, afterL], rfl, s3, by simp [visit, list], hs⟩
    | chordmode =>
      have hk : NotesAreL (Sel c c2 c3 sel) L ks := by simpa [NotesAre] using hn
      simp only [visit] at h
      split at h
      · cases h
      · rename_i e
        cases h
        simp only [visit] at h2
        split at h2
        · cases h2
        · rename_i f
          cases h2
          obtain ⟨rfl, rfl, s4, a2, b2⟩ := list_twice P sel ks rm 0 s _ s2 _ s3 L _ _ _ _ hk hs e f
          refine ⟨by rw [after]; simp, rfl, s4, ?_, b2⟩
          simp only [visit]
          rw [a2]
    | other =>
      have hk : NotesAreL (Sel c c2 c3 sel) L ks := by simpa [NotesAre] using hn
      simp only [visit] at h
      split at h
      · cases h
      · rename_i e
        cases h
        simp only [visit] at h2
        split at h2
        · cases h2
        · rename_i f
          cases h2
          obtain ⟨rfl, rfl, s4, a2, b2⟩ := list_twice P sel ks rm 0 s _ s2 _ s3 L _ _ _ _ hk hs e f
          refine ⟨by rw [after]; simp, rfl, s4, ?_, b2⟩
          simp only [visit]
          rw [a2]
theorem list_twice {c c2 c3 : Ctx} (P : Trip c c2 c3) (sel : Id → Bool) : ∀ (ks : List Doc) (rm : Bool) (n : ℕ) (s s' s2 s2' s3 : Sink) (L L' L2 : Str)
    (ks' ks2 : List Doc), NotesAreL (Sel c c2 c3 sel) L ks → Tri s s2 s3 → list c sel rm n s L ks = .ok (s', L', ks') →
    list c2 sel rm n s2 L ks' = .ok (s2', L2, ks2) → L' = afterL L ks ∧ L2 = L' ∧ ∃ s3', list c3 sel rm n s3 L ks = .ok (s3', L', ks2) ∧ Tri s' s2' s3'
  | [], rm, n, s, s', s2, s2', s3, L, L', L2, ks', ks2, hn, hs, h, h2 => by
    rw [list] at h
    cases h
    rw [list] at h2
    cases h2
    exact ⟨by rw [afterL], rfl, s3, by rw [list], hs⟩
  | k :: ks, rm, n, s, s', s2, s2', s3, L, L', L2, ks', ks2, hn, hs, h, h2 => by
    rw [NotesAreL] at hn
    cases n with
    | zero =>
      rw [list] at h
      split at h
      · cases h
      · rename_i e1
        split at h
        · cases h
        · rename_i e2
          cases h
          rw [list] at h2
          split at h2
          · cases h2
          · rename_i f1
            split at h2
            · cases h2
            · rename_i f2
              cases h2
              obtain ⟨rfl, rfl, s5, a1, b1⟩ := visit_twice P sel k rm s _ s2 _ s3 L _ _ _ _ hn.1 hs e1 f1
              obtain ⟨rfl, rfl, s6, a2, b2⟩ := list_twice P sel ks rm 0 _ _ _ _ s5 _ _ _ _ _ hn.2 b1 e2 f2
              refine ⟨by rw [afterL], rfl, s6, ?_, b2⟩
              rw [list, a1]
              simp only
              rw [a2]
    | succ n =>
      rw [list] at h
      split at h
      · cases h
      · rename_i e1
        split at h
        · cases h
        · rename_i e2
          cases h
          rw [list] at h2
          split at h2
          · cases h2
          · rename_i f1
            split at h2
            · cases h2
            · rename_i f2
              cases h2
              obtain ⟨rfl, rfl, s5, a1, -⟩ := visit_twice P sel k false (.pitches c.toct) _ (.pitches c2.toct) _ (.pitches c3.toct) L _ _ _ _ hn.1 P.toct e1 f1
              obtain ⟨rfl, rfl, s6, a2, b2⟩ := list_twice P sel ks rm n s _ s2 _ s3 _ _ _ _ _ hn.2 hs e2 f2
              refine ⟨by rw [afterL], rfl, s6, ?_, b2⟩
              rw [list, a1]
              simp only
              rw [a2]
theorem skip_twice {c c2 c3 : Ctx} (P : Trip c c2 c3) (sel : Id → Bool) : ∀ (ks : List Doc) (st : Option Start) (rm : Bool) (s s' s2 s2' s3 : Sink)
    (L L' L2 : Str) (ks' ks2 : List Doc),
    (st = some .fixed → ∀ k, (real ks).head? = some k → NoLang k) →
    (st = some .relative → ∀ i p nd chk gs, (real ks).head? = some (.node i (.note p nd chk) gs) → NoLangL gs) →
    NotesAreL (Sel c c2 c3 sel) L ks → Tri s s2 s3 → skip c sel st rm s L ks = .ok (s', L', ks') → skip c2 sel st rm s2 L ks' = .ok (s2', L2, ks2) →
    L' = afterL L ks ∧ L2 = L' ∧ ∃ s3', skip c3 sel st rm s3 L ks = .ok (s3', L', ks2)
  | [], st, rm, s, s', s2, s2', s3, L, L', L2, ks', ks2, _, _, hn, hs, h, h2 => by
    rw [skip] at h
    cases h
    rw [skip] at h2
    cases h2
    exact ⟨by rw [afterL], rfl, s3, by rw [skip]⟩
  | k :: ks, st, rm, s, s', s2, s2', s3, L, L', L2, ks', ks2, hf, hr, hn, hs, h, h2 => by
    rw [NotesAreL] at hn
    rw [skip] at h
    split at h
    · rename_i hk
      obtain ⟨i, l, qs⟩ := k
      rw [Doc.lab] at hk
      subst hk
      have hq : qs = [] := by simpa [NotesAre] using hn.1
      subst hq
      have hre : real (Doc.node i .comment [] :: ks) = real ks := by simp [real, Doc.lab]
      rw [hre] at hf hr
      have ha : after L (Doc.node i .comment []) = L := by simp [after, afterL]
      rw [ha] at hn
      split at h
      · cases h
      · rename_i e
        cases h
        rw [skip, if_pos (by rw [Doc.lab])] at h2
        split at h2
        · cases h2
        · rename_i f
          cases h2
          obtain ⟨rfl, rfl, s4, a2⟩ := skip_twice P sel ks st rm s _ s2 _ s3 L _ _ _ _ hf hr hn.2 hs e f
          refine ⟨by rw [afterL, ha], rfl, s4, ?_⟩
          rw [skip, if_pos (by rw [Doc.lab]), a2]
    · rename_i hk
      have hre : real (k :: ks) = k :: real ks := by
        unfold real
        rw [List.filter_cons, if_pos (by simpa using hk)]
      split at h
      · cases h
      · rename_i s4 g hr1
        split at h
        · cases h
        · rename_i e
          cases h
          have ha : after L k = L := by
            rcases st with _ | (_ | _)
            · obtain ⟨i, l, gs⟩ := k
              cases l <;> cases hr1
            · obtain ⟨i, l, gs⟩ := k
              cases l with
              | note p nd chk =>
                rw [after]
                · exact noLangL_after L gs (hr rfl i p nd chk gs (by rw [hre]; rfl))
                · simp
              | _ => cases hr1
            · exact noLang_after L k (hf rfl k (by rw [hre]; rfl))
          rw [skip, if_neg (fun e => hk ((same_comment (first_same c sel st L k g s4 hr1)).1 e))] at h2
          split at h2
          · cases h2
          · rename_i f1
            obtain ⟨t2, k2, t3, q1, q2, q3⟩ := first_twice P sel st L k g s4 _ hn.1 hr1 f1
            cases q1
            split at h2
            · cases h2
            · rename_i f
              cases h2
              rw [ha] at hn
              obtain ⟨rfl, rfl, s6, a2⟩ := skip_twice P sel ks none rm s4 _ _ _ t3 L _ _ _ _ (by simp) (by simp) hn.2 q3 e f
              refine ⟨by rw [afterL, ha], rfl, s6, ?_⟩
              rw [skip, if_neg hk, q2]
              simp only
              rw [a2]
          · rename_i f1
            obtain ⟨t2, k2, t3, q1, q2, q3⟩ := first_twice P sel st L k g s4 _ hn.1 hr1 f1
            cases q1
      · rename_i hr1
        split at h
        · cases h
        · rename_i g e1
          split at h
          · cases h
          · rename_i e2
            cases h
            have hsm := visit_same c sel k _ _ _ _ _ _ e1
            rw [skip, if_neg (fun e => hk ((same_comment hsm).1 e)), first_none (c := c) (c2 := c2) sel st L k g hsm hr1] at h2
            simp only at h2
            split at h2
            · cases h2
            · rename_i f1
              split at h2
              · cases h2
              · rename_i f2
                cases h2
                obtain ⟨rfl, rfl, s5, a1, b1⟩ := visit_twice P sel k rm s _ s2 _ s3 L _ _ _ _ hn.1 hs e1 f1
                obtain ⟨rfl, rfl, s6, a2⟩ := skip_twice P sel ks none rm _ _ _ _ s5 _ _ _ _ _ (by simp) (by simp) hn.2 b1 e2 f2
                refine ⟨by rw [afterL], rfl, s6, ?_⟩
                rw [skip, if_neg hk, first_none (c := c) (c2 := c3) sel st L k k (same_refl sel k) hr1]
                simp only
                rw [a1]
                simp only
                rw [a2]
end

end Quickly.TransposeTwice
