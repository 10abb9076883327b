import Verif.Rel2abs.Music

/-! # Which nodes stay -/

namespace Quickly.Rel2abs

open Quickly.Pitch Quickly.Relative Spec

mutual
theorem stay_noRel : ∀ t : Doc, NoRel t → stay false t = ids t
  | .node i l ks, h => by
    rw [NoRel] at h
    have := stayL_noRel ks h.2
    cases l <;> simp [stay, ids, this]
    exact absurd rfl h.1
theorem stayL_noRel : ∀ ts : List Doc, NoRelL ts → stayL false ts = idsL ts
  | [], _ => by rw [stayL, idsL]
  | t :: ts, h => by
    rw [NoRelL] at h
    rw [stayL, idsL, stay_noRel t h.1, stayL_noRel ts h.2]
end

mutual
theorem walk_stay (c : Cfg) (L : Str) : ∀ (t : Doc) (s s' : Sink) (ts : List Doc), s.isCheck = false → NoRel t → walk c L s t = .ok (s', ts) →
    idsL ts = stay true t
  | .node i l ks, s, s', ts, hc, hn, h => by
    rw [NoRel] at hn
    have hk := fun s s' us a => walkL_stay c L ks s s' us a hn.2
    have h0 := stayL_noRel ks hn.2
    have same : ∀ l', idsL [Doc.node i l' ks] = i :: stayL false ks := by intro l'; rw [h0]; simp [idsL, ids]
    have inner : ∀ us, idsL us = stayL true ks → idsL [Doc.node i l us] = i :: stayL true ks := by
      intro us hu; simp [idsL, ids, hu]
    cases l with
    | note p nd chk =>
      cases s with
      | check last => simp [Sink.isCheck] at hc
      | _ =>
        simp only [walk] at h
        split at h
        · simp at h
        · simp only [Except.ok.injEq, Prod.mk.injEq] at h; rw [← h.2, same, stay]
    | chord =>
      cases s with
      | music last =>
        simp only [walk] at h
        split at h
        · simp at h
        · rename_i us h1
          simp only [Except.ok.injEq, Prod.mk.injEq] at h
          rw [← h.2, inner us (hk _ _ _ rfl h1)]
          simp [stay]
        · simp at h
      | _ => simp [walk] at h
    | check =>
      cases s with
      | music last =>
        simp only [walk] at h
        split at h
        · simp at h
        · simp only [Except.ok.injEq, Prod.mk.injEq] at h
          rw [← h.2]; simp [idsL, stay]
        · simp at h
      | _ => simp [walk] at h
    | relative => simp [walk] at h
    | skip k => simp only [walk, Except.ok.injEq, Prod.mk.injEq] at h; rw [← h.2, same, stay]
    | language l => simp only [walk, Except.ok.injEq, Prod.mk.injEq] at h; rw [← h.2, same, stay]
    | comment | chordmode | other =>
      simp only [walk] at h
      split at h
      · simp at h
      · rename_i us h1
        simp only [Except.ok.injEq, Prod.mk.injEq] at h
        rw [← h.2, inner us (hk _ _ _ hc h1)]
        simp [stay]
theorem walkL_stay (c : Cfg) (L : Str) : ∀ (ts : List Doc) (s s' : Sink) (us : List Doc), s.isCheck = false → NoRelL ts → walkL c L s ts = .ok (s', us) →
    idsL us = stayL true ts
  | [], s, s', us, _, _, h => by simp only [walkL, Except.ok.injEq, Prod.mk.injEq] at h; rw [← h.2, idsL, stayL]
  | t :: ts, s, s', us, hc, hn, h => by
    rw [NoRelL] at hn
    simp only [walkL] at h
    split at h
    · simp at h
    · rename_i s1 a h1
      split at h
      · simp at h
      · rename_i s2 b h2
        simp only [Except.ok.injEq, Prod.mk.injEq] at h
        rw [← h.2, idsL_append, stayL, walk_stay c L t _ _ _ hc hn.1 h1,
          walkL_stay c L ts _ _ _ (by rw [walk_isCheck _ _ _ _ _ _ h1]; exact hc) hn.2 h2]
end

theorem stayR_none : ∀ ks : List Doc, real ks = [] → stayR 0 ks = []
  | [], _ => by rw [stayR]
  | k :: ks, h => by
    by_cases hk : k.lab = .comment
    · rw [stayR, if_pos hk]; exact stayR_none ks (by simpa [real, hk] using h)
    · simp [real, hk] at h

theorem stayR_one : ∀ (ks : List Doc) (b : Doc), real ks = [b] → stayR 0 ks = stay true b
  | [], b, h => by simp [real] at h
  | k :: ks, b, h => by
    rw [stayR]
    by_cases hk : k.lab = .comment
    · rw [if_pos hk]; exact stayR_one ks b (by simpa [real, hk] using h)
    · have h2 : k = b ∧ real ks = [] := by simpa [real, hk] using h
      rw [if_neg hk, h2.1, stayR_none ks h2.2, List.append_nil]

theorem stayR_two : ∀ (ks : List Doc) (s b : Doc), real ks = [s, b] → stayR 1 ks = stay true b
  | [], s, b, h => by simp [real] at h
  | k :: ks, s, b, h => by
    rw [stayR]
    by_cases hk : k.lab = .comment
    · rw [if_pos hk]; exact stayR_two ks s b (by simpa [real, hk] using h)
    · have h2 : k = s ∧ real ks = [b] := by simpa [real, hk] using h
      rw [if_neg hk]; exact stayR_one ks b h2.2

theorem stay_rel (i : Id) (ks : List Doc) (hr : RelOk ks) : stay false (.node i .relative ks) = stay true (bodyOf (.node i .relative ks)) := by
  rw [stay]
  rcases hr.shape with ⟨b, hb, _⟩ | ⟨s, b, hb, hs, _⟩
  · have e1 : start? [] ks = none := by rw [start?, hb]
    have e2 : bodyOf (.node i .relative ks) = b := by simp [bodyOf, Doc.kids, hb]
    rw [e1, e2]; exact stayR_one ks b hb
  · have e2 : bodyOf (.node i .relative ks) = b := by simp [bodyOf, Doc.kids, hb]
    obtain ⟨si, sl, sk⟩ := s
    rw [Doc.lab] at hs
    cases sl with
    | note p nd chk =>
      have e1 : start? [] ks = some { node := nd, check := chk, lang := [] } := by
        rw [start?, hb]; exact if_pos hs
      rw [e1, e2]; exact stayR_two ks _ b hb
    | _ => simp [Lab.isPitch] at hs

mutual
theorem out_stay (c : Cfg) (L : Str) : ∀ (t : Doc) (ts : List Doc), Nice t → out c L t = .ok ts → idsL ts = stay false t
  | .node i l ks, ts, hn, h => by
    rw [out] at h
    split_ifs at h with hl
    · subst hl
      split at h
      · simp at h
      · split at h
        · simp at h
        · rename_i us h1
          simp only [Except.ok.injEq] at h
          rw [← h, stay_rel i ks (nice_rel hn)]
          exact walk_stay c L _ _ _ _ rfl (relOk_body (r := .node i .relative ks) (nice_rel hn)).2.2.1 h1
    · split at h
      · simp at h
      · rename_i us h1
        simp only [Except.ok.injEq] at h
        have := outL_stay c L ks us (nice_other hn hl).2.2 h1
        rw [← h]
        cases l <;> simp [idsL, ids, stay, this]
        exact absurd rfl hl
theorem outL_stay (c : Cfg) (L : Str) : ∀ (ts us : List Doc), NiceL ts → outL c L ts = .ok us → idsL us = stayL false ts
  | [], us, _, h => by simp only [outL, Except.ok.injEq] at h; rw [← h, idsL, stayL]
  | t :: ts, us, hn, h => by
    rw [NiceL] at hn
    simp only [outL] at h
    split at h
    · simp at h
    · rename_i a h1
      split at h
      · simp at h
      · rename_i b h2
        simp only [Except.ok.injEq] at h
        rw [← h, idsL_append, stayL, out_stay c L t a hn.1 h1, outL_stay c L ts b hn.2 h2]
end

end Quickly.Rel2abs
