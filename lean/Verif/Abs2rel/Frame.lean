import Verif.Abs2rel.Trail

/-! # What is changed -/

namespace Quickly.Abs2rel

open Quickly.Pitch Quickly.Relative Quickly.Abs2rel.Spec
open Quickly.Node (Path)

/-- There is a start pitch if one is wished for and there was a note. -/
def Begun (st : Settings) (s : RelState) : Prop := s.start.isSome = (st.startPitch && s.last.isSome)

theorem relNote_frame (pp : Langs) (st : Settings) (s s' : RelState) (n n' : Note) (h : relNote pp st s n = .ok (s', n')) :
    n'.node.head = n.node.head ∧ n'.check = n.check ∧ s'.last.isSome = true ∧ (Begun st s → Begun st s') := by
  unfold relNote at h
  split at h
  · cases h
  · rename_i p hp
    simp only at h
    split at h
    · cases h
    · rename_i l start hl
      split at h
      · cases h
      · rename_i nd hnd
        cases h
        refine ⟨?_, rfl, rfl, fun hb => ?_⟩
        · unfold Processor.readNode at hp
          split at hp
          · rename_i p0 hp0
            cases hp
            rw [Processor.writeNode, hp0] at hnd
            simp only [Pitch.makeRelative, and_self, if_true] at hnd
            cases hnd
            rfl
          · cases hp
        · unfold Begun at hb ⊢
          split at hl
          · rename_i l0 e0
            cases hl
            rw [hb, e0]
            rfl
          · unfold getFirstPitch at hl
            split at hl
            · rename_i hs
              simp only at hl
              split at hl
              · cases hl
              · cases hl
                simp [hs]
            · rename_i hs
              cases hl
              simp [hs]

mutual
theorem notes_frame (pp : Langs) (st : Settings) : ∀ (d : Doc) (s s' : RelState) (L L' : Str) (d' : Doc),
    notes pp st s L d = .ok (s', L', d') →
    Octaves d d' ∧ (s'.last.isSome = true ↔ s.last.isSome = true ∨ HasNote d) ∧ (Begun st s → Begun st s')
  | .node l ks, s, s', L, L', d', h => by
    have rest : (match notesL pp st s L ks with
        | .error e => .error e
        | .ok (s, L, ks) => .ok (s, L, .node l ks)) = (.ok (s', L', d') : Py (RelState × Str × Doc)) →
        (∃ ks', d' = .node l ks' ∧ OctavesL ks ks') ∧ (s'.last.isSome = true ↔ s.last.isSome = true ∨ HasNoteL ks) ∧
          (Begun st s → Begun st s') := by
      intro h
      split at h
      · cases h
      · rename_i e
        cases h
        obtain ⟨a, b⟩ := notesL_frame pp st ks _ _ _ _ _ e
        exact ⟨⟨_, rfl, a⟩, b⟩
    cases l with
    | list => simpa only [Octaves, HasNote] using rest (by simp only [notes] at h; exact h)
    | lab l =>
      cases l with
      | note p nd chk =>
        rw [notes] at h
        split at h
        · cases h
        · rename_i s1 n e
          cases h
          obtain ⟨h1, h2, h3, h4⟩ := relNote_frame pp st _ _ _ _ e
          refine ⟨?_, ?_, h4⟩
          · rw [Octaves]
            refine ⟨n.node.octave, ?_⟩
            simp only at h1 h2
            rw [← h1, h2]
          · simp [h3, HasNote]
      | chord =>
        rw [notes] at h
        cases h
        simp [Octaves, HasNote]
      | skip k =>
        rw [notes] at h
        cases h
        simp [Octaves, HasNote]
      | language l =>
        rw [notes] at h
        cases h
        simp [Octaves, HasNote]
      | check => simpa only [Octaves, HasNote] using rest (by simp only [notes] at h; exact h)
      | relative => simpa only [Octaves, HasNote] using rest (by simp only [notes] at h; exact h)
      | comment => simpa only [Octaves, HasNote] using rest (by simp only [notes] at h; exact h)
      | chordmode => simpa only [Octaves, HasNote] using rest (by simp only [notes] at h; exact h)
      | other => simpa only [Octaves, HasNote] using rest (by simp only [notes] at h; exact h)
theorem notesL_frame (pp : Langs) (st : Settings) : ∀ (ks : List Doc) (s s' : RelState) (L L' : Str) (ks' : List Doc),
    notesL pp st s L ks = .ok (s', L', ks') →
    OctavesL ks ks' ∧ (s'.last.isSome = true ↔ s.last.isSome = true ∨ HasNoteL ks) ∧ (Begun st s → Begun st s')
  | [], s, s', L, L', ks', h => by
    rw [notesL] at h
    cases h
    simp [OctavesL, HasNoteL]
  | k :: ks, s, s', L, L', ks', h => by
    rw [notesL] at h
    split at h
    · cases h
    · rename_i e1
      split at h
      · cases h
      · rename_i e2
        cases h
        obtain ⟨a1, a2, a3⟩ := notes_frame pp st k _ _ _ _ _ e1
        obtain ⟨b1, b2, b3⟩ := notesL_frame pp st ks _ _ _ _ _ e2
        refine ⟨?_, ?_, b3 ∘ a3⟩
        · rw [OctavesL]
          exact ⟨_, _, rfl, a1, b1⟩
        · rw [b2, a2, HasNoteL, or_assoc]
end

theorem octaves_kids {l : Lab} {ks ks' : List Doc} (hl : l = .list ∨ l = .lab .chordmode) (h : OctavesL ks ks') :
    Octaves (.node l ks) (.node l ks') := by
  rcases hl with rfl | rfl
  · simp only [Octaves]
    exact ⟨_, rfl, h⟩
  · simp only [Octaves]
    exact ⟨_, rfl, h⟩

theorem make_wrapped (pp : Langs) (st : Settings) (L L' : Str) (l : Lab) (ks : List Doc) (d' : Doc) (hl : l = .list ∨ l = .lab .chordmode)
    (h : make pp st L (.node l ks) = .ok (L', d')) : Wrapped st.startPitch (.node l ks) d' := by
  rw [make] at h
  split at h
  · cases h
  · rename_i s L1 ks' e
    cases h
    obtain ⟨a, b, c⟩ := notesL_frame pp st ks _ _ _ _ _ e
    have hb := c (by simp [Begun])
    rw [Begun] at hb
    refine ⟨_, _, rfl, octaves_kids hl a, fun hs => ?_, fun hs => ?_⟩
    · simp only [Doc.kids] at hs
      have h1 : s.last.isSome = true := b.2 (.inr hs.2)
      rw [h1, hs.1] at hb
      obtain ⟨n, hn⟩ := Option.isSome_iff_exists.1 hb
      rw [hn]
      exact ⟨n.node, rfl⟩
    · simp only [Doc.kids] at hs
      have h1 : s.start = none := by
        rw [← Option.not_isSome_iff_eq_none, hb, Bool.and_eq_true, b]
        simpa using hs
      rw [h1]
      rfl

/-- An empty list has no range in it. -/
theorem edited_same {sp : Bool} {st : Path} {en : Option Path} {p : Path} {d : Doc} (h : ¬ Touched st en p) : Edited sp st en p d d := .outside h

mutual
theorem edit_edited (pp : Langs) (se : Settings) (st : Path) (en : Option Path) : ∀ (d : Doc) (p : Path) (r : Rng) (L L' : Str) (d' : Doc),
    At st en p r → Valid r d → Touched st en p → edit pp se r (r.whole d) L d = .ok (L', d') → Edited se.startPitch st en p d d'
  | .node l ks, p, r, L, L', d', ha, hv, ht, h => by
    have rest : l ≠ .lab .relative → l ≠ .lab .chordmode → ¬ (Tune (.node l ks) ∧ Complete st en p (.node l ks)) →
        (match editL pp se r ks.length 0 L ks with
        | .error e => .error e
        | .ok (L, ks) => .ok (L, .node l ks)) = (.ok (L', d') : Py (Str × Doc)) → Edited se.startPitch st en p (.node l ks) d' := by
      intro h1 h2 h3 h
      split at h
      · cases h
      · rename_i L1 ks' e
        cases h
        obtain ⟨a, b⟩ := editL_edited pp se st en ks p r (.node l ks) 0 L _ _ ha hv (by simp [Doc.kids]) e
        exact .inside ht h1 h2 h3 a (fun i x y => by simpa using b i x y)
    cases l with
    | list =>
      rw [edit] at h
      split at h
      · rename_i hn
        rw [Bool.and_eq_true, List.any_eq_true] at hn
        exact .tune ht ⟨rfl, hn.1⟩ ((whole_iff ha hv).1 hn.2) (make_wrapped _ _ _ _ _ _ _ (.inl rfl) h)
      · rename_i hn
        rw [Bool.and_eq_true, List.any_eq_true, whole_iff ha hv] at hn
        exact rest (by simp) (by simp) (fun hc => hn ⟨hc.1.2, hc.2⟩) h
    | lab l =>
      have nt : ¬ (Tune (.node (.lab l) ks) ∧ Complete st en p (.node (.lab l) ks)) := by
        rintro ⟨⟨x, -⟩, -⟩
        cases x
      cases l with
      | relative =>
        rw [edit] at h
        cases h
        exact .relative rfl
      | chordmode =>
        rw [edit] at h
        exact .chordmode ht rfl (make_wrapped _ _ _ _ _ _ _ (.inr rfl) h)
      | note p nd chk => exact rest (by simp) (by simp) nt (by simp only [edit] at h; exact h)
      | chord => exact rest (by simp) (by simp) nt (by simp only [edit] at h; exact h)
      | check => exact rest (by simp) (by simp) nt (by simp only [edit] at h; exact h)
      | skip k => exact rest (by simp) (by simp) nt (by simp only [edit] at h; exact h)
      | language l => exact rest (by simp) (by simp) nt (by simp only [edit] at h; exact h)
      | comment => exact rest (by simp) (by simp) nt (by simp only [edit] at h; exact h)
      | other => exact rest (by simp) (by simp) nt (by simp only [edit] at h; exact h)
theorem editL_edited (pp : Langs) (se : Settings) (st : Path) (en : Option Path) : ∀ (ks : List Doc) (p : Path) (r : Rng) (d : Doc) (i : ℕ) (L L' : Str)
    (ks' : List Doc), At st en p r → Valid r d → d.kids.drop i = ks → editL pp se r d.kids.length i L ks = .ok (L', ks') →
    ks'.length = ks.length ∧ ∀ (j : ℕ) (h : j < ks.length) (h' : j < ks'.length), Edited se.startPitch st en (p ++ [i + j]) ks[j] ks'[j]
  | [], p, r, d, i, L, L', ks', ha, hv, hk, h => by
    rw [editL] at h
    cases h
    exact ⟨rfl, fun j hj => by simp at hj⟩
  | k :: ks, p, r, d, i, L, L', ks', ha, hv, hk, h => by
    have hki : d.kids[i]? = some k := by
      have := congrArg (·[0]?) hk
      simpa using this
    obtain ⟨hi, -⟩ := List.getElem?_eq_some_iff.1 hki
    have hks : d.kids.drop (i + 1) = ks := by
      have := congrArg List.tail hk
      simpa using this
    rw [editL] at h
    split at h
    · cases h
    · rename_i L1 k1 e1
      split at h
      · cases h
      · rename_i L2 ks2 e2
        cases h
        obtain ⟨b1, b2⟩ := editL_edited pp se st en ks p r d (i + 1) _ _ _ ha hv hks e2
        refine ⟨by simp [b1], fun j hj hj' => ?_⟩
        cases j with
        | zero =>
          simp only [List.getElem_cons_zero, add_zero]
          split at e1
          · rename_i hr
            rw [inRange_eq] at e1
            exact edit_edited pp se st en k _ _ _ _ _ (at_child ha _ _ hr.1 hr.2) (valid_child hv hki) ((touched_child ha _ _ hi).2 hr) e1
          · rename_i hr
            cases e1
            exact .outside fun ht => hr ((touched_child ha _ _ hi).1 ht)
        | succ j =>
          simp only [List.getElem_cons_succ]
          have := b2 j (by simpa using hj) (by simpa using hj')
          rwa [show i + 1 + j = i + (j + 1) by omega] at this
end

end Quickly.Abs2rel
