import Verif.TransposeAbs.Walk

/-! # The whole document -/

namespace Quickly.TransposeAbs

open Quickly.Pitch Quickly.Relative Quickly.TransposeDoc
open Quickly.TransposeAbs.Spec (Apt AptL)
open Quickly.TransposeDoc.Spec (Same SameL LabSame)
open Quickly.Rel2abs (Doc Lab Id Cfg walk walkL out outL startOf bodyOf mkNote out_noRel outL_noRel nice_other nice_rel relOk_body tidyL_mem noRel_mem)
open Quickly.Rel2abs.Spec (NoRel NoRelL Nice NiceL RelOk OneLang OneLangL Tidy TidyL ids idsL real firsts start?)

theorem aptL_mem {b : Bool} : ∀ {ts : List Doc}, AptL b ts → ∀ t ∈ ts, Apt b t
  | u :: ts, h, t, ht => by
    rw [AptL] at h
    rcases List.mem_cons.1 ht with rfl | ht
    · exact h.1
    · exact aptL_mem h.2 t ht

theorem oneLangL_mem {L : Str} : ∀ {ts : List Doc}, OneLangL L ts → ∀ t ∈ ts, OneLang L t
  | u :: ts, h, t, ht => by
    rw [OneLangL] at h
    rcases List.mem_cons.1 ht with rfl | ht
    · exact h.1
    · exact oneLangL_mem h.2 t ht

/-! ## The children of `\relative` -/

theorem real_cons (k : Doc) (ks : List Doc) : real (k :: ks) = if k.lab = .comment then real ks else k :: real ks := by
  unfold real
  by_cases hk : k.lab = .comment
  · rw [List.filter_cons_of_neg (by simpa using hk), if_pos hk]
  · rw [List.filter_cons_of_pos (by simpa using hk), if_neg hk]

theorem first_none (c : Ctx) (L : Str) (k : Doc) : first c whole none L k = .ok none := by
  obtain ⟨i, l, ks⟩ := k
  cases l <;> rfl

theorem skip_none (c : Ctx) (rm : Bool) (s : Sink) (L : Str) : ∀ ks : List Doc, real ks = [] → skip c whole none rm s L ks = .ok (s, L, ks)
  | [], _ => by rw [skip]
  | k :: ks, h => by
    rw [real_cons] at h
    split at h
    · rename_i hk
      rw [skip, if_pos hk, skip_none c rm s L ks h]
    · cases h

theorem skip_body (c : Ctx) (rm : Bool) (s s' : Sink) (L L' : Str) (b : Doc) : ∀ ks ks2 : List Doc, real ks = [b] →
    skip c whole none rm s L ks = .ok (s', L', ks2) → ∃ b2, visit c whole rm s L b = .ok (s', L', b2) ∧ real ks2 = [b2]
  | [], _, h, _ => by simp [real] at h
  | k :: ks, ks2, h, h2 => by
    rw [real_cons] at h
    rw [skip] at h2
    split at h
    · rename_i hk
      rw [if_pos hk] at h2
      split at h2
      · cases h2
      · rename_i e
        cases h2
        obtain ⟨b2, x, y⟩ := skip_body c rm s s' L L' b ks _ h e
        exact ⟨b2, x, by rw [real_cons, if_pos hk, y]⟩
    · rename_i hk
      rw [if_neg hk, first_none] at h2
      simp only at h2
      obtain ⟨rfl, hr⟩ := List.cons.inj h
      split at h2
      · cases h2
      · rename_i s1 L1 b2 e1
        rw [skip_none c rm _ _ ks hr] at h2
        cases h2
        refine ⟨b2, e1, ?_⟩
        have hs := visit_same c whole _ _ _ _ _ _ _ e1
        rw [real_cons, if_neg (fun e => hk ((same_lab hs .comment (by simp)).2 e)), hr]

theorem skip_start (c : Ctx) (s s' : Sink) (L L' : Str) (i : Id) (p : Bool) (nd : PNode) (chk : Option ℤ) (sk : List Doc) (b : Doc) : ∀ ks ks2 : List Doc,
    real ks = [.node i (.note p nd chk) sk, b] → skip c whole (some .relative) true s L ks = .ok (s', L', ks2) →
    ∃ last n b2, transposeStart c (mkNote L nd chk) = .ok (last, n) ∧ visit c whole true (.relative last) L b = .ok (s', L', b2) ∧
      real ks2 = [setNote i p n sk, b2]
  | [], _, h, _ => by simp [real] at h
  | k :: ks, ks2, h, h2 => by
    rw [real_cons] at h
    rw [skip] at h2
    split at h
    · rename_i hk
      rw [if_pos hk] at h2
      split at h2
      · cases h2
      · rename_i e
        cases h2
        obtain ⟨last, n, b2, x, y, z⟩ := skip_start c s s' L L' i p nd chk sk b ks _ h e
        exact ⟨last, n, b2, x, y, by rw [real_cons, if_pos hk, z]⟩
    · rename_i hk
      rw [if_neg hk] at h2
      obtain ⟨rfl, hr⟩ := List.cons.inj h
      rw [first] at h2
      split at h2
      · cases h2
      · rename_i e
        split at e
        · cases e
        · rename_i last n e1
          cases e
          split at h2
          · cases h2
          · rename_i e2
            cases h2
            obtain ⟨b2, x, y⟩ := skip_body c true _ _ _ _ b ks _ hr e2
            exact ⟨last, n, b2, e1, x, by rw [real_cons, if_neg (by simp [setNote, Doc.lab]), y]⟩
      · rename_i e
        split at e <;> cases e

/-- A `\relative`: converting the transposed music gives what transposing the converted music gives. -/
theorem rel_conv {c : Ctx} (g : Good c) (i : Id) (ks : List Doc) (s' : Sink) (L L' : Str) (t2 : Doc) (hr : RelOk ks) (ht : TidyL false ks) (hf : AptL true ks)
    (ho : OneLangL L ks) (h : visit c whole false (.pitches 0) L (.node i .relative ks) = .ok (s', L', t2)) :
    ∃ as bs, out (cfg c) L (.node i .relative ks) = .ok as ∧ out (cfg c) L t2 = .ok bs ∧ list c whole false 0 (.pitches 0) L as = .ok (.pitches 0, L, bs) := by
  have key : ∀ (ks2 : List Doc) (last : Last) (p p2 : Pitch) (b b2 : Doc) (s1 : Sink) (L1 : Str), b ∈ ks → bodyOf (.node i .relative ks) = b →
      bodyOf (.node i .relative ks2) = b2 → startOf (cfg c) L ks = .ok p → startOf (cfg c) L ks2 = .ok p2 → Conv p last p2 →
      visit c whole true (.relative last) L b = .ok (s1, L1, b2) → ∃ as bs, out (cfg c) L (.node i .relative ks) = .ok as ∧
        out (cfg c) L (.node i .relative ks2) = .ok bs ∧ list c whole false 0 (.pitches 0) L as = .ok (.pitches 0, L, bs) := by
    intro ks2 last p p2 b b2 s1 L1 hb e1 e2 e3 e4 hc hv
    obtain ⟨R1', as, R2', bs, a1, a2, -, -, a3⟩ := walk_conv g b true (.relative last) _ (.music p) (.music p2) _ _ _ (noRel_mem hr.plain _ hb) (tidyL_mem ht _ hb) (aptL_mem hf _ hb)
      (oneLangL_mem ho _ hb) ⟨rfl, hc⟩ hv
    refine ⟨as, bs, ?_, ?_, a3 rfl⟩
    · rw [out, if_pos rfl, e3]; simp only; rw [e1, a1]
    · rw [out, if_pos rfl, e4]; simp only; rw [e2, a2]
  rw [visit] at h
  split at h
  · cases h
  · rename_i s1 ks2 e
    cases h
    rcases hr.shape with ⟨b, hb, -⟩ | ⟨s, b, hb, hs, -⟩
    · have hm : b ∈ ks := by
        have : b ∈ real ks := by rw [hb]; simp
        exact (List.mem_filter.1 this).1
      have hlen : ¬ (ks.filter fun k => k.lab ≠ .comment).length > 1 := by
        have : (ks.filter fun k => k.lab ≠ .comment) = [b] := hb
        rw [this]; simp
      rw [if_neg hlen] at e
      obtain ⟨b2, x, y⟩ := skip_body c true _ _ _ _ b ks _ hb e
      refine key ks2 ⟨firstPitch c.firstAbs, none⟩ (firstPitch c.firstAbs) (firstPitch c.firstAbs) b b2 _ _ hm (by simp [bodyOf, Doc.kids, hb]) (by simp [bodyOf, Doc.kids, y])
        (by rw [startOf, start?, hb]) (by rw [startOf, start?, y]) ⟨0, by simp only [down_zero], by simp only [Last.prev, down_zero]⟩ x
    · have hm : b ∈ ks := by
        have : b ∈ real ks := by rw [hb]; simp
        exact (List.mem_filter.1 this).1
      have hlen : (ks.filter fun k => k.lab ≠ .comment).length > 1 := by
        have : (ks.filter fun k => k.lab ≠ .comment) = [s, b] := hb
        rw [this]; simp
      rw [if_pos hlen] at e
      obtain ⟨si, sl, sk⟩ := s
      rw [Doc.lab] at hs
      cases sl with
      | note p nd chk =>
        simp only [Rel2abs.Lab.isPitch] at hs
        subst hs
        obtain ⟨last, n, b2, x, y, z⟩ := skip_start c _ _ _ _ si _ nd chk sk b ks _ hb e
        obtain ⟨q, q1, q2, q3⟩ := start_conv g L nd _ _ _ x
        refine key ks2 last q (c.tr q) b b2 _ _ hm (by simp [bodyOf, Doc.kids, hb]) (by simp [bodyOf, Doc.kids, z]) ?_ ?_ q3 y
        · simp only [startOf, start?, hb, Doc.lab, Rel2abs.Lab.isPitch, if_true, Rel2abs.Spec.note?]
          exact q1
        · simp only [startOf, start?, z, setNote, Doc.lab, Rel2abs.Lab.isPitch, if_true, Rel2abs.Spec.note?]
          exact q2
      | _ => simp [Rel2abs.Lab.isPitch] at hs

/-! ## Outside `\relative` -/

theorem firsts_take : ∀ (n : ℕ) (ks : List Doc), TidyL false ks → NoRelL (firsts n ks) → NoRelL (ks.take n)
  | 0, _, _, _ => by simp [NoRelL]
  | _ + 1, [], _, _ => by simp [NoRelL]
  | n + 1, k :: ks, ht, h => by
    rw [TidyL] at ht
    unfold firsts at h
    rw [real_cons] at h
    rw [List.take_succ_cons, NoRelL]
    split at h
    · rename_i hk
      refine ⟨?_, firsts_take n ks ht.2 ?_⟩
      · obtain ⟨i, l, gs⟩ := k
        rw [Doc.lab] at hk
        subst hk
        have := ht.1
        simp only [Tidy] at this
        subst this
        simp [NoRel, NoRelL]
      · have := Rel2abs.noRelL_take n _ h
        rwa [List.take_take, min_eq_left (by omega)] at this
    · rw [List.take_succ_cons, NoRelL] at h
      exact ⟨h.1, firsts_take n ks ht.2 h.2⟩

/-- There is no `\relative`, so there is nothing to convert. -/
theorem plain_conv (c : Ctx) (t : Doc) (s' : Sink) (L L' : Str) (t2 : Doc) (hn : NoRel t) (ho : OneLang L t)
    (h : visit c whole false (.pitches 0) L t = .ok (s', L', t2)) :
    ∃ as bs, out (cfg c) L t = .ok as ∧ out (cfg c) L t2 = .ok bs ∧ list c whole false 0 (.pitches 0) L as = .ok (.pitches 0, L, bs) := by
  have hlang := visit_lang c whole _ _ _ _ _ _ _ ho h
  have hp := visit_pitches c whole _ _ _ _ _ _ _ h
  subst hlang hp
  exact ⟨[t], [t2], out_noRel _ _ _ hn, out_noRel _ _ _ (same_noRel whole _ _ (visit_same c whole _ _ _ _ _ _ _ h) hn), list_one h⟩

mutual
theorem out_conv {c : Ctx} (g : Good c) : ∀ (t : Doc) (s' : Sink) (L L' : Str) (t2 : Doc), Nice t → Tidy false t → Apt false t → OneLang L t →
    visit c whole false (.pitches 0) L t = .ok (s', L', t2) →
    ∃ as bs, out (cfg c) L t = .ok as ∧ out (cfg c) L t2 = .ok bs ∧ list c whole false 0 (.pitches 0) L as = .ok (.pitches 0, L, bs)
  | .node i l ks, s', L, L', t2, hni, ht, hf, ho, h => by
    have hlang := visit_lang c whole _ _ _ _ _ _ _ ho h
    have hp := visit_pitches c whole _ _ _ _ _ _ _ h
    have hol := ho
    rw [OneLang] at hol
    have plain : l ≠ .relative → NoRelL ks → ∃ as bs, out (cfg c) L (.node i l ks) = .ok as ∧ out (cfg c) L t2 = .ok bs ∧
        list c whole false 0 (.pitches 0) L as = .ok (.pitches 0, L, bs) := fun a b => plain_conv c _ _ _ _ _ (by rw [NoRel]; exact ⟨a, b⟩) ho h
    have kids : ∀ n s2 L2 ks2, AptL false ks → TidyL false ks → NiceL ks → NoRelL (ks.take n) → list c whole false n (.pitches 0) L ks = .ok (s2, L2, ks2) →
        ∃ as bs, outL (cfg c) L ks = .ok as ∧ outL (cfg c) L ks2 = .ok bs ∧ list c whole false n (.pitches 0) L as = .ok (.pitches 0, L, bs) :=
      fun n s2 L2 ks2 a b d e f => outL_conv g ks n s2 L L2 ks2 d b a hol.2 e f
    cases l with
    | relative =>
      simp only [Apt] at hf
      simp only [Tidy] at ht
      exact rel_conv g i ks _ _ _ _ (nice_rel hni) ht hf hol.2 h
    | check => exact plain (by simp) ((nice_other hni (by simp)).1 rfl)
    | chord => exact plain (by simp) ((nice_other hni (by simp)).1 rfl)
    | language l => exact plain (by simp) ((nice_other hni (by simp)).1 rfl)
    | comment => exact plain (by simp) ((nice_other hni (by simp)).1 rfl)
    | note p nd chk =>
      have hni := (nice_other hni (by simp)).2.2
      simp only [Apt] at hf
      simp only [Tidy] at ht
      rw [visit] at h
      split at h
      · cases h
      · rename_i s1 n e1
        split at h
        · cases h
        · rename_i e2
          cases h
          subst hp
          obtain ⟨as, bs, a, b, d⟩ := kids 0 _ _ _ hf.2 ht hni (by simp [NoRelL]) e2
          refine ⟨_, _, by rw [out, if_neg (by simp), a], by rw [setNote, out, if_neg (by simp), b], list_one ?_⟩
          rw [visit, e1]
          simp only
          rw [d]
          rfl
    | skip k =>
      cases k with
      | key => exact plain (by simp) ((nice_other hni (by simp)).1 rfl)
      | silent => exact plain (by simp) ((nice_other hni (by simp)).1 rfl)
      | fixed =>
        simp only [Apt] at hf
        exact plain (by simp) hf
      | absolute =>
        have hni := (nice_other hni (by simp)).2.2
        simp only [Apt] at hf
        simp only [Tidy] at ht
        rw [visit] at h
        split at h
        · cases h
        · rename_i e2
          cases h
          obtain ⟨as, bs, a, b, d⟩ := kids 0 _ _ _ hf ht hni (by simp [NoRelL]) e2
          refine ⟨_, _, by rw [out, if_neg (by simp), a], by rw [out, if_neg (by simp), b], list_one ?_⟩
          rw [visit, d]
      | transpose =>
        have hni := nice_other hni (by simp)
        simp only [Apt] at hf
        simp only [Tidy] at ht
        rw [visit] at h
        split at h
        · cases h
        · rename_i e2
          cases h
          obtain ⟨as, bs, a, b, d⟩ := kids 2 _ _ _ hf.2 ht hni.2.2 (firsts_take 2 ks ht hni.2.1) e2
          refine ⟨_, _, by rw [out, if_neg (by simp), a], by rw [out, if_neg (by simp), b], list_one ?_⟩
          rw [visit, d]
    | _ =>
      have hni := (nice_other hni (by simp)).2.2
      simp only [Apt] at hf
      simp only [Tidy] at ht
      rw [visit] at h
      · split at h
        · cases h
        · rename_i e2
          cases h
          obtain ⟨as, bs, a, b, d⟩ := kids 0 _ _ _ hf ht hni (by simp [NoRelL]) e2
          refine ⟨_, _, by rw [out, if_neg (by simp), a], by rw [out, if_neg (by simp), b], list_one ?_⟩
          rw [visit, d]
          all_goals simp
      all_goals simp
theorem outL_conv {c : Ctx} (g : Good c) : ∀ (ks : List Doc) (n : ℕ) (s' : Sink) (L L' : Str) (ks2 : List Doc), NiceL ks → TidyL false ks → AptL false ks →
    OneLangL L ks → NoRelL (ks.take n) → list c whole false n (.pitches 0) L ks = .ok (s', L', ks2) →
    ∃ as bs, outL (cfg c) L ks = .ok as ∧ outL (cfg c) L ks2 = .ok bs ∧ list c whole false n (.pitches 0) L as = .ok (.pitches 0, L, bs)
  | [], n, s', L, L', ks2, _, _, _, _, _, h => by
    rw [list] at h
    cases h
    exact ⟨[], [], by rw [outL], by rw [outL], by rw [list]⟩
  | k :: ks, 0, s', L, L', ks2, hni, ht, hf, ho, _, h => by
    rw [NiceL] at hni
    rw [TidyL] at ht
    rw [AptL] at hf
    rw [OneLangL] at ho
    obtain ⟨s1, L1, k1, s2, L2, gs, e1, e2, e3⟩ := list_cons _ _ _ _ _ _ _ _ h
    cases e3
    have hlang := visit_lang c whole _ _ _ _ _ _ _ ho.1 e1
    have hp := visit_pitches c whole _ _ _ _ _ _ _ e1
    subst hlang hp
    obtain ⟨as, bs, a, b, d⟩ := out_conv g k _ _ _ _ hni.1 ht.1 hf.1 ho.1 e1
    obtain ⟨as', bs', a', b', d'⟩ := outL_conv g ks 0 _ _ _ _ hni.2 ht.2 hf.2 ho.2 (by simp [NoRelL]) e2
    refine ⟨as ++ as', bs ++ bs', ?_, ?_, list_append c _ _ _ _ _ _ _ _ _ _ d d'⟩
    · rw [outL, a]; simp only; rw [a']
    · rw [outL, b]; simp only; rw [b']
  | k :: ks, n + 1, s', L, L', ks2, hni, ht, hf, ho, hn, h => by
    rw [NiceL] at hni
    rw [TidyL] at ht
    rw [AptL] at hf
    rw [OneLangL] at ho
    rw [List.take_succ_cons, NoRelL] at hn
    rw [list] at h
    split at h
    · cases h
    · rename_i k2 e1
      split at h
      · cases h
      · rename_i e2
        cases h
        have hlang := visit_lang c whole _ _ _ _ _ _ _ ho.1 e1
        subst hlang
        obtain ⟨as', bs', a', b', d'⟩ := outL_conv g ks n _ _ _ _ hni.2 ht.2 hf.2 ho.2 hn.2 e2
        refine ⟨k :: as', k2 :: bs', ?_, ?_, ?_⟩
        · rw [outL, out_noRel _ _ _ hn.1]; simp only; rw [a']; rfl
        · rw [outL, out_noRel _ _ _ (same_noRel whole _ _ (visit_same c whole _ _ _ _ _ _ _ e1) hn.1)]; simp only; rw [b']; rfl
        · rw [list, e1]
          simp only
          rw [d']
end

end Quickly.TransposeAbs
