import Verif.TransposeDoc.Sim
import Verif.Relative.Props

/-! # Transposing does not fail if there are names for the notes -/

namespace Quickly.TransposeDoc

open Quickly.Pitch Quickly.Relative Quickly.Rel2abs Spec

/-- The loop is the same. -/
def Sink.like : Sink → Sink → Prop
  | .pitches o, .pitches o' => o' = o
  | .key, .key => True
  | .relative _, .relative _ => True
  | .chord _ _, .chord _ _ => True
  | .check _, .check _ => True
  | _, _ => False

theorem Sink.like_refl (s : Sink) : s.like s := by cases s <;> simp [Sink.like]

theorem Sink.like_trans {a b d : Sink} (h : a.like b) (h' : b.like d) : a.like d := by
  cases a <;> cases b <;> cases d <;> simp_all [Sink.like]

/-- A name in the language for the transposed pitch of the note. -/
def Named (c : Ctx) (L : Str) (nd : PNode) : Prop := Nameable c { node := nd, lang := L }

theorem check_succeeds (c : Ctx) (g : Good c) (n : Note) (h : Nameable c n) : ∃ r, transposeCheck c n = .ok r := by
  obtain ⟨p, hp, name, o, hm⟩ := h
  obtain ⟨nd, hnd⟩ := C16_write_succeeds (c.pp n.lang) n.node (c.tr p) (read_hasName _ (g.dict _) _ _ hp) ⟨name, o, hm⟩
  simp only [transposeCheck, hp, hnd]
  cases n.writable <;> exact ⟨_, rfl⟩

theorem start_succeeds (c : Ctx) (g : Good c) (n : Note) (h : Nameable c n) : ∃ r, transposeStart c n = .ok r := by
  obtain ⟨p, hp, name, o, hm⟩ := h
  obtain ⟨nd, hnd⟩ := C16_write_succeeds (c.pp n.lang) n.node (c.tr p) (read_hasName _ (g.dict _) _ _ hp) ⟨name, o, hm⟩
  simp only [transposeStart, hp, hnd]
  cases n.writable <;> exact ⟨_, rfl⟩

theorem consume_succeeds (c : Ctx) (g : Good c) (n : Note) (s : Sink) (h : Nameable c n) :
    ∃ s' n', consume c n s = .ok (s', n') ∧ s.like s' := by
  cases s with
  | pitches o =>
    obtain ⟨r, hr⟩ := transposeAbs_succeeds c g o n h
    exact ⟨.pitches o, r, by rw [consume, hr], rfl⟩
  | key =>
    obtain ⟨r, hr⟩ := transposeKey_succeeds c g n h
    exact ⟨.key, r, by rw [consume, hr], trivial⟩
  | relative last =>
    obtain ⟨r, hr⟩ := transposeNote_succeeds c g n last h
    exact ⟨.relative r.1, r.2, by rw [consume, hr], trivial⟩
  | chord top first =>
    obtain ⟨r, hr⟩ := transposeNote_succeeds c g n top h
    exact ⟨.chord r.1 _, r.2, by rw [consume, hr], trivial⟩
  | check last =>
    obtain ⟨r, hr⟩ := check_succeeds c g n h
    exact ⟨.check r.1, r.2, by rw [consume, hr], trivial⟩

theorem first_succeeds (c : Ctx) (g : Good c) (sel : Id → Bool) (st : Option Start) (L : Str) (k : Doc) (h : AllNotes (Named c) L k) :
    ∃ r, first c sel st L k = .ok r := by
  obtain ⟨i, l, ks⟩ := k
  cases l with
  | note p nd chk =>
    have hn : ∀ w, Nameable c { node := nd, check := chk, writable := w, lang := L } := fun w => by
      have : Named c L nd := by simp only [AllNotes] at h; exact h.1
      exact this
    rcases st with _ | (_ | _)
    · exact ⟨_, rfl⟩
    · obtain ⟨r, hr⟩ := start_succeeds c g _ (hn (sel i))
      exact ⟨_, by rw [first, hr]⟩
    · rw [first]
      cases sel i with
      | true =>
        obtain ⟨r, hr⟩ := transposeAbs_succeeds c g 0 _ (hn true)
        exact ⟨_, by rw [if_pos rfl, hr]⟩
      | false => exact ⟨_, rfl⟩
  | _ => rcases st with _ | (_ | _) <;> exact ⟨_, rfl⟩

mutual
theorem visit_succeeds (c : Ctx) (g : Good c) (sel : Id → Bool) : ∀ (t : Doc) (rm : Bool) (s : Sink) (L : Str), AllNotes (Named c) L t →
    ∃ s' t', visit c sel rm s L t = .ok (s', after L t, t') ∧ s.like s'
  | .node i l ks, rm, s, L, h => by
    cases l with
    | note p nd chk =>
      rw [AllNotes] at h
      obtain ⟨s1, n, e1, l1⟩ := consume_succeeds c g { node := nd, check := chk, writable := sel i, lang := L } s h.1
      obtain ⟨s2, gs, e2, -⟩ := list_succeeds c g sel ks false 0 (.pitches 0) L h.2
      refine ⟨s1, setNote i p n gs, ?_, l1⟩
      rw [visit, e1]
      simp only
      rw [e2, after]
      simp
    | chord =>
      have hk : AllNotesL (Named c) L ks := by simpa [AllNotes] using h
      rw [visit]
      split
      · rename_i last e
        obtain ⟨s2, gs, e2, l2⟩ := list_succeeds c g sel ks false 0 (.chord last none) L hk
        cases s2 <;> simp [Sink.like] at l2
        rw [e2, after]
        · refine ⟨_, _, rfl, ?_⟩
          cases rm <;> cases s <;> simp [relLast] at e
          trivial
        · simp
      · obtain ⟨s2, gs, e2, l2⟩ := list_succeeds c g sel ks rm 0 s L hk
        rw [e2, after]
        · exact ⟨_, _, rfl, l2⟩
        · simp
    | check =>
      have hk : AllNotesL (Named c) L ks := by simpa [AllNotes] using h
      rw [visit]
      split
      · rename_i last e
        obtain ⟨s2, gs, e2, l2⟩ := list_succeeds c g sel ks false 0 (.check last) L hk
        cases s2 <;> simp [Sink.like] at l2
        rw [e2, after]
        · refine ⟨_, _, rfl, ?_⟩
          cases rm <;> cases s <;> simp [relLast] at e
          trivial
        · simp
      · obtain ⟨s2, gs, e2, l2⟩ := list_succeeds c g sel ks rm 0 s L hk
        rw [e2, after]
        · exact ⟨_, _, rfl, l2⟩
        · simp
    | relative =>
      rw [AllNotes] at h
      rw [visit]
      obtain ⟨s2, gs, e2⟩ := skip_succeeds c g sel ks (if (ks.filter fun k => k.lab ≠ .comment).length > 1 then some .relative else none) true
        (.relative ⟨firstPitch c.firstAbs, none⟩) L (by split <;> simp) (fun _ => h.1) h.2
      rw [e2, after]
      · exact ⟨_, _, rfl, Sink.like_refl s⟩
      · simp
    | language l => exact ⟨s, _, by rw [visit, after], Sink.like_refl s⟩
    | skip kd => cases kd with
      | silent =>
        have hk : NoLangL ks := by simpa [AllNotes] using h
        exact ⟨s, _, by rw [visit, after, noLangL_after _ _ hk]; simp, Sink.like_refl s⟩
      | fixed =>
        rw [AllNotes] at h
        rw [visit]
        obtain ⟨s2, gs, e2⟩ := skip_succeeds c g sel ks (some .fixed) false (.pitches 0) L (fun _ => h.1) (by simp) h.2
        rw [e2, after]
        · exact ⟨_, _, rfl, Sink.like_refl s⟩
        · simp
      | key =>
        have hk : AllNotesL (Named c) L ks := by simpa [AllNotes] using h
        obtain ⟨s2, gs, e2, l2⟩ := list_succeeds c g sel ks false 0 .key L hk
        rw [visit, e2, after]
        · exact ⟨_, _, rfl, Sink.like_refl s⟩
        · simp
      | absolute =>
        have hk : AllNotesL (Named c) L ks := by simpa [AllNotes] using h
        obtain ⟨s2, gs, e2, l2⟩ := list_succeeds c g sel ks false 0 (.pitches 0) L hk
        rw [visit, e2, after]
        · exact ⟨_, _, rfl, Sink.like_refl s⟩
        · simp
      | transpose =>
        have hk : AllNotesL (Named c) L ks := by simpa [AllNotes] using h
        obtain ⟨s2, gs, e2, l2⟩ := list_succeeds c g sel ks false 2 s L hk
        rw [visit, e2, after]
        · exact ⟨_, _, rfl, l2⟩
        · simp
    | comment =>
      have hq : ks = [] := by simpa [AllNotes] using h
      subst hq
      refine ⟨s, .node i .comment [], ?_, Sink.like_refl s⟩
      rw [visit, list, after]
      · simp [afterL]
      all_goals simp
    | _ =>
      have hk : AllNotesL (Named c) L ks := by simpa [AllNotes] using h
      obtain ⟨s2, gs, e2, l2⟩ := list_succeeds c g sel ks rm 0 s L hk
      rw [visit, e2, after]
      · exact ⟨_, _, rfl, l2⟩
      all_goals simp
theorem list_succeeds (c : Ctx) (g : Good c) (sel : Id → Bool) : ∀ (ks : List Doc) (rm : Bool) (n : ℕ) (s : Sink) (L : Str),
    AllNotesL (Named c) L ks → ∃ s' ks', list c sel rm n s L ks = .ok (s', afterL L ks, ks') ∧ s.like s'
  | [], rm, n, s, L, _ => ⟨s, [], by rw [list, afterL], Sink.like_refl s⟩
  | k :: ks, rm, n, s, L, h => by
    rw [AllNotesL] at h
    cases n with
    | zero =>
      obtain ⟨s1, k1, e1, l1⟩ := visit_succeeds c g sel k rm s L h.1
      obtain ⟨s2, ks2, e2, l2⟩ := list_succeeds c g sel ks rm 0 s1 _ h.2
      refine ⟨s2, k1 :: ks2, ?_, Sink.like_trans l1 l2⟩
      rw [list, e1]
      simp only
      rw [e2, afterL]
    | succ n =>
      obtain ⟨s1, k1, e1, l1⟩ := visit_succeeds c g sel k false (.pitches c.toct) L h.1
      obtain ⟨s2, ks2, e2, l2⟩ := list_succeeds c g sel ks rm n s _ h.2
      refine ⟨s2, k1 :: ks2, ?_, l2⟩
      rw [list, e1]
      simp only
      rw [e2, afterL]
theorem skip_succeeds (c : Ctx) (g : Good c) (sel : Id → Bool) : ∀ (ks : List Doc) (st : Option Start) (rm : Bool) (s : Sink) (L : Str),
    (st = some .fixed → ∀ k, (real ks).head? = some k → NoLang k) →
    (st = some .relative → ∀ i p nd chk gs, (real ks).head? = some (.node i (.note p nd chk) gs) → NoLangL gs) →
    AllNotesL (Named c) L ks → ∃ s' ks', skip c sel st rm s L ks = .ok (s', afterL L ks, ks')
  | [], st, rm, s, L, _, _, _ => ⟨s, [], by rw [skip, afterL]⟩
  | k :: ks, st, rm, s, L, hf, hr, h => by
    rw [AllNotesL] at h
    rw [skip]
    split
    · rename_i hk
      obtain ⟨i, l, qs⟩ := k
      rw [Doc.lab] at hk
      subst hk
      have hq : qs = [] := by simpa [AllNotes] using h.1
      subst hq
      have hre : real (Doc.node i .comment [] :: ks) = real ks := by simp [real, Doc.lab]
      rw [hre] at hf hr
      have ha : after L (Doc.node i .comment []) = L := by simp [after, afterL]
      rw [ha] at h
      obtain ⟨s2, ks2, e2⟩ := skip_succeeds c g sel ks st rm s L hf hr h.2
      rw [e2, afterL, ha]
      exact ⟨_, _, rfl⟩
    · rename_i hk
      have hre : real (k :: ks) = k :: real ks := by
        unfold real
        rw [List.filter_cons, if_pos (by simpa using hk)]
      obtain ⟨r, hr1⟩ := first_succeeds c g sel st L k h.1
      rw [hr1]
      cases r with
      | some r =>
        obtain ⟨s1, k1⟩ := r
        have ha : after L k = L := by
          rcases st with _ | (_ | _)
          · obtain ⟨i, l, gs⟩ := k
            cases l <;> cases hr1
          · obtain ⟨i, l, gs⟩ := k
            cases l with
            | note p nd chk =>
              rw [after]
              · exact noLangL_after L gs (hr rfl i p nd chk gs (by rw [hre]; rfl))
              · simp
            | _ => cases hr1
          · exact noLang_after L k (hf rfl k (by rw [hre]; rfl))
        obtain ⟨s2, ks2, e2⟩ := skip_succeeds c g sel ks none rm s1 _ (by simp) (by simp) h.2
        rw [ha] at e2
        simp only
        rw [e2, afterL, ha]
        exact ⟨_, _, rfl⟩
      | none =>
        obtain ⟨s1, k1, e1, -⟩ := visit_succeeds c g sel k rm s L h.1
        obtain ⟨s2, ks2, e2⟩ := skip_succeeds c g sel ks none rm s1 _ (by simp) (by simp) h.2
        simp only
        rw [e1]
        simp only
        rw [e2, afterL]
        exact ⟨_, _, rfl⟩
end

end Quickly.TransposeDoc
