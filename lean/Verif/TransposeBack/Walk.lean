import Verif.TransposeBack.Lemmas

/-! # The walk over the transposed document -/

namespace Quickly.TransposeBack

open Quickly.Pitch Quickly.Relative Quickly.TransposeDoc Quickly.TransposeDoc.Spec Spec
open Quickly.Rel2abs (Doc Lab Id)

/-- The notes that are selected are as they should be. -/
abbrev Sel (c c2 : Ctx) (sel : Id → Bool) : Id → Str → PNode → Option ℤ → Prop :=
  fun i L nd chk => sel i = true → Returns c.pp c.tr c2.tr L nd chk

theorem rev_relLast {s s2 : Sink} (h : Rev s s2) (rm : Bool) :
    (relLast rm s = none ∧ relLast rm s2 = none) ∨ ∃ l l2, relLast rm s = some l ∧ relLast rm s2 = some l2 ∧ RevLast l l2 := by
  cases rm
  · left; constructor <;> rfl
  · cases s <;> cases s2 <;> simp only [Rev] at h
    · left; constructor <;> rfl
    · left; constructor <;> rfl
    · right; exact ⟨_, _, rfl, rfl, h⟩
    · left; constructor <;> rfl
    · left; constructor <;> rfl

theorem labSame_comment {w : Bool} {l m : Lab} (h : LabSame w l m) : m = .comment ↔ l = .comment := by
  rcases h with rfl | ⟨_, p, nd, chk, nd', chk', rfl, rfl, _⟩ <;> simp

theorem same_comment {sel : Id → Bool} {k g : Doc} (h : Same sel k g) : g.lab = .comment ↔ k.lab = .comment := by
  obtain ⟨i, l, ks⟩ := k
  obtain ⟨j, m, gs⟩ := g
  rw [Same] at h
  exact labSame_comment h.2.1

theorem sameL_real {sel : Id → Bool} : ∀ (ks gs : List Doc), SameL sel ks gs →
    (gs.filter fun k => k.lab ≠ .comment).length = (ks.filter fun k => k.lab ≠ .comment).length
  | [], [], _ => rfl
  | [], _ :: _, h => by simp [SameL] at h
  | _ :: _, [], h => by simp [SameL] at h
  | k :: ks, g :: gs, h => by
    rw [SameL] at h
    have := same_comment h.1
    have ih := sameL_real ks gs h.2
    by_cases hk : k.lab = .comment
    · have hg := this.2 hk
      rw [List.filter_cons_of_neg (by simpa using hg), List.filter_cons_of_neg (by simpa using hk), ih]
    · have hg : g.lab ≠ .comment := fun e => hk (this.1 e)
      rw [List.filter_cons_of_pos (by simpa using hg), List.filter_cons_of_pos (by simpa using hk), List.length_cons, List.length_cons, ih]

/-- The first node of a `\relative` or `\fixed`. -/
theorem first_back {c c2 : Ctx} (P : Pair c c2) (sel : Id → Bool) (st : Option Start) (L : Str) (k k' : Doc) (s : Sink)
    (hn : NotesAre (Sel c c2 sel) L k) (h : first c sel st L k = .ok (some (s, k'))) :
    ∃ s2, first c2 sel st L k' = .ok (some (s2, k)) ∧ Rev s s2 := by
  obtain ⟨i, l, ks⟩ := k
  cases l with
  | note p nd chk =>
    have hr : sel i = true → Returns c.pp c.tr c2.tr L nd chk := by
      simp only [NotesAre] at hn; exact hn.1
    rcases st with _ | (_ | _)
    · cases h
    · simp only [first] at h
      split at h
      · cases h
      · rename_i last n e
        cases h
        have hm := transposeStart_moved c _ _ _ e
        obtain ⟨l2, a, b⟩ := start_back P { node := nd, check := chk, writable := sel i, lang := L } _ _ hr e
        refine ⟨.relative l2, ?_, b⟩
        obtain ⟨n1, n2, n3, n4⟩ := n
        obtain ⟨m1, m2, -, -⟩ := hm
        simp only at m1 m2
        subst m1 m2
        simp only [setNote, first, a]
    · simp only [first] at h
      split at h
      · rename_i hs
        split at h
        · cases h
        · rename_i n e
          cases h
          have hm := transposeAbs_moved c _ _ _ e
          have a := abs_back P _ _ 0 (fun _ => hr hs) e
          refine ⟨.pitches c2.toct, ?_, by rw [P.toct]; rfl⟩
          obtain ⟨n1, n2, n3, n4⟩ := n
          obtain ⟨m1, m2, -, -⟩ := hm
          simp only at m1 m2
          subst m1 m2
          simp only [neg_zero] at a
          simp only [setNote, first, a, hs, if_true]
      · rename_i hs
        cases h
        refine ⟨.pitches 0, ?_, by simp [Rev]⟩
        simp only [first, hs]
        simp
  | _ =>
    rcases st with _ | (_ | _)
    · cases h
    · cases h
    · cases h
      exact ⟨.pitches 0, rfl, by simp [Rev]⟩

theorem first_none {c c2 : Ctx} (sel : Id → Bool) (st : Option Start) (L : Str) (k k' : Doc) (hs : Same sel k k')
    (h : first c sel st L k = .ok none) : first c2 sel st L k' = .ok none := by
  obtain ⟨i, l, ks⟩ := k
  obtain ⟨j, m, gs⟩ := k'
  rw [Same] at hs
  obtain ⟨rfl, hl, -⟩ := hs
  rcases hl with rfl | ⟨_, p, nd, chk, nd', chk', rfl, rfl, _⟩
  · cases l with
    | note p nd chk =>
      rcases st with _ | (_ | _)
      · rfl
      · simp only [first] at h; split at h <;> cases h
      · simp only [first] at h
        split at h
        · split at h <;> cases h
        · cases h
    | _ =>
      rcases st with _ | (_ | _)
      · rfl
      · rfl
      · cases h
  · rcases st with _ | (_ | _)
    · rfl
    · simp only [first] at h; split at h <;> cases h
    · unfold first at h
      simp only at h
      split at h
      · split at h <;> simp at h
      · contradiction

mutual
theorem visit_back {c c2 : Ctx} (P : Pair c c2) (sel : Id → Bool) : ∀ (t : Doc) (rm : Bool) (s s' s2 : Sink) (L L' : Str) (t' : Doc),
    NotesAre (Sel c c2 sel) L t → Rev s s2 → visit c sel rm s L t = .ok (s', L', t') →
    L' = after L t ∧ ∃ s2', visit c2 sel rm s2 L t' = .ok (s2', L', t) ∧ Rev s' s2'
  | .node i l ks, rm, s, s', s2, L, L', t', hn, hs, h => by
    cases l with
    | note p nd chk =>
      rw [NotesAre] at hn
      rw [visit] at h
      split at h
      · cases h
      · rename_i s1 n e1
        split at h
        · cases h
        · rename_i s3 L3 gs e2
          cases h
          obtain ⟨rfl, s4, a2, -⟩ := list_back P sel ks false 0 (.pitches 0) _ (.pitches 0) L _ gs hn.2 (by simp [Rev]) e2
          have hm := consume_moved c _ _ _ _ e1
          obtain ⟨s5, a1, b1⟩ := consume_back P { node := nd, check := chk, writable := sel i, lang := L } _ _ _ _ hn.1 hs e1
          refine ⟨by rw [after]; simp, s5, ?_, b1⟩
          obtain ⟨n1, n2, n3, n4⟩ := n
          obtain ⟨m1, m2, -, -⟩ := hm
          simp only at m1 m2
          subst m1 m2
          rw [setNote, visit, a1]
          simp only
          rw [a2]
          rfl
    | chord =>
      have hk : NotesAreL (Sel c c2 sel) L ks := by simpa [NotesAre] using hn
      rw [visit] at h
      rcases rev_relLast hs rm with ⟨r1, r2⟩ | ⟨l, l2, r1, r2, hl⟩
      · rw [r1] at h
        simp only at h
        split at h
        · cases h
        · rename_i s3 L3 gs e
          cases h
          obtain ⟨rfl, s4, a2, b2⟩ := list_back P sel ks rm 0 s _ s2 L _ gs hk hs e
          refine ⟨by rw [after]; simp, s4, ?_, b2⟩
          rw [visit, r2]
          simp only
          rw [a2]
      · rw [r1] at h
        simp only at h
        split at h
        · cases h
        · rename_i t f L3 gs e
          cases h
          obtain ⟨rfl, s4, a2, b2⟩ := list_back P sel ks false 0 (.chord l none) _ (.chord l2 none) L _ gs hk ⟨hl, trivial⟩ e
          cases s4 with
          | chord t2 f2 =>
            refine ⟨by rw [after]; simp, .relative (f2.getD l2), ?_, ?_⟩
            · rw [visit, r2]
              simp only
              rw [a2]
            · simp only [Rev] at b2 ⊢
              cases f <;> cases f2 <;> simp only at b2 ⊢
              · exact hl
              · exact b2.2.elim
              · exact b2.2.elim
              · exact b2.2
          | _ => simp only [Rev] at b2
        · cases h
    | check =>
      have hk : NotesAreL (Sel c c2 sel) L ks := by simpa [NotesAre] using hn
      rw [visit] at h
      rcases rev_relLast hs rm with ⟨r1, r2⟩ | ⟨l, l2, r1, r2, hl⟩
      · rw [r1] at h
        simp only at h
        split at h
        · cases h
        · rename_i s3 L3 gs e
          cases h
          obtain ⟨rfl, s4, a2, b2⟩ := list_back P sel ks rm 0 s _ s2 L _ gs hk hs e
          refine ⟨by rw [after]; simp, s4, ?_, b2⟩
          rw [visit, r2]
          simp only
          rw [a2]
      · rw [r1] at h
        simp only at h
        split at h
        · cases h
        · rename_i t L3 gs e
          cases h
          obtain ⟨rfl, s4, a2, b2⟩ := list_back P sel ks false 0 (.check l) _ (.check l2) L _ gs hk hl e
          cases s4 with
          | check t2 =>
            refine ⟨by rw [after]; simp, .relative t2, ?_, b2⟩
            rw [visit, r2]
            simp only
            rw [a2]
          | _ => simp only [Rev] at b2
        · cases h
    | relative =>
      rw [NotesAre] at hn
      rw [visit] at h
      split at h
      · cases h
      · rename_i s3 L3 gs e
        cases h
        obtain ⟨rfl, s4, a2⟩ := skip_back P sel ks _ true (.relative ⟨firstPitch c.firstAbs, none⟩) _
          (.relative ⟨firstPitch c2.firstAbs, none⟩) L _ gs (by split <;> simp) (fun _ => hn.1) hn.2
          ⟨0, by rw [P.fa]; simp [down_zero, Last.prev], by rw [P.fa]; simp [down_zero, Last.prev]⟩ e
        refine ⟨by rw [after]; simp, s2, ?_, hs⟩
        rw [visit, sameL_real ks gs (skip_same c sel ks _ _ _ _ _ _ _ e), a2]
    | language l =>
      rw [visit] at h
      cases h
      exact ⟨by rw [after], s2, by rw [visit], hs⟩
    | skip kd => cases kd with
      | silent =>
        have hk : NoLangL ks := by simpa [NotesAre] using hn
        rw [visit] at h
        cases h
        exact ⟨by rw [after, noLangL_after _ _ hk]; simp, s2, by rw [visit], hs⟩
      | fixed =>
        rw [NotesAre] at hn
        rw [visit] at h
        split at h
        · cases h
        · rename_i s3 L3 gs e
          cases h
          obtain ⟨rfl, s4, a2⟩ := skip_back P sel ks (some .fixed) false (.pitches 0) _ (.pitches 0) L _ gs (fun _ => hn.1) (by simp) hn.2
            (by simp [Rev]) e
          refine ⟨by rw [after]; simp, s2, ?_, hs⟩
          rw [visit, a2]
      | key =>
        have hk : NotesAreL (Sel c c2 sel) L ks := by simpa [NotesAre] using hn
        rw [visit] at h
        split at h
        · cases h
        · rename_i s3 L3 gs e
          cases h
          obtain ⟨rfl, s4, a2, -⟩ := list_back P sel ks false 0 .key _ .key L _ gs hk trivial e
          refine ⟨by rw [after]; simp, s2, ?_, hs⟩
          rw [visit, a2]
      | absolute =>
        have hk : NotesAreL (Sel c c2 sel) L ks := by simpa [NotesAre] using hn
        rw [visit] at h
        split at h
        · cases h
        · rename_i s3 L3 gs e
          cases h
          obtain ⟨rfl, s4, a2, -⟩ := list_back P sel ks false 0 (.pitches 0) _ (.pitches 0) L _ gs hk (by simp [Rev]) e
          refine ⟨by rw [after]; simp, s2, ?_, hs⟩
          rw [visit, a2]
      | transpose =>
        have hk : NotesAreL (Sel c c2 sel) L ks := by simpa [NotesAre] using hn
        rw [visit] at h
        split at h
        · cases h
        · rename_i s3 L3 gs e
          cases h
          obtain ⟨rfl, s4, a2, b2⟩ := list_back P sel ks false 2 s _ s2 L _ gs hk hs e
          refine ⟨by rw [after]; simp, s4, ?_, b2⟩
          rw [visit, a2]
    | comment =>
      have hq : ks = [] := by simpa [NotesAre] using hn
      subst hq
      simp [visit, list] at h
      obtain ⟨rfl, rfl, rfl⟩ := h
      exact ⟨by simp [after, afterL], s2, by simp [visit, list], hs⟩
    | chordmode =>
      have hk : NotesAreL (Sel c c2 sel) L ks := by simpa [NotesAre] using hn
      simp only [visit] at h
      split at h
      · cases h
      · rename_i s3 L3 gs e
        cases h
        obtain ⟨rfl, s4, a2, b2⟩ := list_back P sel ks rm 0 s _ s2 L _ gs hk hs e
        refine ⟨by rw [after]; simp, s4, ?_, b2⟩
        simp only [visit]
        rw [a2]
    | other =>
      have hk : NotesAreL (Sel c c2 sel) L ks := by simpa [NotesAre] using hn
      simp only [visit] at h
      split at h
      · cases h
      · rename_i s3 L3 gs e
        cases h
        obtain ⟨rfl, s4, a2, b2⟩ := list_back P sel ks rm 0 s _ s2 L _ gs hk hs e
        refine ⟨by rw [after]; simp, s4, ?_, b2⟩
        simp only [visit]
        rw [a2]
theorem list_back {c c2 : Ctx} (P : Pair c c2) (sel : Id → Bool) : ∀ (ks : List Doc) (rm : Bool) (n : ℕ) (s s' s2 : Sink) (L L' : Str) (ks' : List Doc),
    NotesAreL (Sel c c2 sel) L ks → Rev s s2 → list c sel rm n s L ks = .ok (s', L', ks') →
    L' = afterL L ks ∧ ∃ s2', list c2 sel rm n s2 L ks' = .ok (s2', L', ks) ∧ Rev s' s2'
  | [], rm, n, s, s', s2, L, L', ks', hn, hs, h => by
    rw [list] at h
    cases h
    exact ⟨by rw [afterL], s2, by rw [list], hs⟩
  | k :: ks, rm, n, s, s', s2, L, L', ks', hn, hs, h => by
    rw [NotesAreL] at hn
    cases n with
    | zero =>
      rw [list] at h
      split at h
      · cases h
      · rename_i s3 L3 g e1
        split at h
        · cases h
        · rename_i s4 L4 gs e2
          cases h
          obtain ⟨rfl, s5, a1, b1⟩ := visit_back P sel k rm s s3 s2 L _ g hn.1 hs e1
          obtain ⟨rfl, s6, a2, b2⟩ := list_back P sel ks rm 0 s3 _ s5 _ _ gs hn.2 b1 e2
          refine ⟨by rw [afterL], s6, ?_, b2⟩
          rw [list, a1]
          simp only
          rw [a2]
    | succ n =>
      rw [list] at h
      split at h
      · cases h
      · rename_i s3 L3 g e1
        split at h
        · cases h
        · rename_i s4 L4 gs e2
          cases h
          obtain ⟨rfl, s5, a1, -⟩ := visit_back P sel k false (.pitches c.toct) s3 (.pitches c2.toct) L _ g hn.1 P.toct e1
          obtain ⟨rfl, s6, a2, b2⟩ := list_back P sel ks rm n s _ s2 _ _ gs hn.2 hs e2
          refine ⟨by rw [afterL], s6, ?_, b2⟩
          rw [list, a1]
          simp only
          rw [a2]
theorem skip_back {c c2 : Ctx} (P : Pair c c2) (sel : Id → Bool) : ∀ (ks : List Doc) (st : Option Start) (rm : Bool) (s s' s2 : Sink) (L L' : Str)
    (ks' : List Doc),
    (st = some .fixed → ∀ k, (real ks).head? = some k → NoLang k) →
    (st = some .relative → ∀ i p nd chk gs, (real ks).head? = some (.node i (.note p nd chk) gs) → NoLangL gs) →
    NotesAreL (Sel c c2 sel) L ks → Rev s s2 → skip c sel st rm s L ks = .ok (s', L', ks') →
    L' = afterL L ks ∧ ∃ s2', skip c2 sel st rm s2 L ks' = .ok (s2', L', ks)
  | [], st, rm, s, s', s2, L, L', ks', _, _, hn, hs, h => by
    rw [skip] at h
    cases h
    exact ⟨by rw [afterL], s2, by rw [skip]⟩
  | k :: ks, st, rm, s, s', s2, L, L', ks', hf, hr, hn, hs, h => by
    rw [NotesAreL] at hn
    rw [skip] at h
    split at h
    · rename_i hk
      obtain ⟨i, l, qs⟩ := k
      rw [Doc.lab] at hk
      subst hk
      have hq : qs = [] := by simpa [NotesAre] using hn.1
      subst hq
      have hre : real (Doc.node i .comment [] :: ks) = real ks := by simp [real, Doc.lab]
      rw [hre] at hf hr
      have ha : after L (Doc.node i .comment []) = L := by simp [after, afterL]
      rw [ha] at hn
      split at h
      · cases h
      · rename_i s3 L3 gs e
        cases h
        obtain ⟨rfl, s4, a2⟩ := skip_back P sel ks st rm s _ s2 L _ gs hf hr hn.2 hs e
        refine ⟨by rw [afterL, ha], s4, ?_⟩
        rw [skip, if_pos (by rw [Doc.lab]), a2]
    · rename_i hk
      have hre : real (k :: ks) = k :: real ks := by
        unfold real
        rw [List.filter_cons, if_pos (by simpa using hk)]
      split at h
      · cases h
      · rename_i s3 g hr1
        split at h
        · cases h
        · rename_i s4 L4 gs e
          cases h
          have ha : after L k = L := by
            rcases st with _ | (_ | _)
            · obtain ⟨i, l, gs⟩ := k
              cases l <;> cases hr1
            · obtain ⟨i, l, gs⟩ := k
              cases l with
              | note p nd chk =>
                rw [after]
                · exact noLangL_after L gs (hr rfl i p nd chk gs (by rw [hre]; rfl))
                · simp
              | _ => cases hr1
            · exact noLang_after L k (hf rfl k (by rw [hre]; rfl))
          obtain ⟨s5, a1, b1⟩ := first_back P sel st L k g s3 hn.1 hr1
          rw [ha] at hn
          obtain ⟨rfl, s6, a2⟩ := skip_back P sel ks none rm s3 _ s5 L _ gs (by simp) (by simp) hn.2 b1 e
          refine ⟨by rw [afterL, ha], s6, ?_⟩
          rw [skip, if_neg (fun e => hk ((same_comment (first_same c sel st L k g s3 hr1)).1 e)), a1]
          simp only
          rw [a2]
      · rename_i hr1
        split at h
        · cases h
        · rename_i s3 L3 g e1
          split at h
          · cases h
          · rename_i s4 L4 gs e2
            cases h
            have hsm := visit_same c sel k _ _ _ _ _ _ e1
            obtain ⟨rfl, s5, a1, b1⟩ := visit_back P sel k rm s s3 s2 L _ g hn.1 hs e1
            obtain ⟨rfl, s6, a2⟩ := skip_back P sel ks none rm s3 _ s5 _ _ gs (by simp) (by simp) hn.2 b1 e2
            refine ⟨by rw [afterL], s6, ?_⟩
            rw [skip, if_neg (fun e => hk ((same_comment hsm).1 e)), first_none (c := c) (c2 := c2) sel st L k g hsm hr1]
            simp only
            rw [a1]
            simp only
            rw [a2]
end

end Quickly.TransposeBack
