import Verif.Abs2rel.SpecRange
import Verif.Abs2rel.Sounds
import Verif.Abs2rel.Frame

/-! # What a document sounds like when a part of it is converted -/

namespace Quickly.Abs2rel

open Quickly.Pitch Quickly.Relative Quickly.Abs2rel.Spec Quickly.Relative.Spec
open Quickly.Pitch.Spec (IsDict Means)
open Quickly.Node (Path)

mutual
theorem edit_still (pp : Langs) (st : Settings) : ∀ (d : Doc) (r : Rng) (all : Bool) (L : Str), Still d → edit pp st r all L d = .ok (L, d)
  | .node l ks, r, all, L, h => by
    have inside : StillL ks → editL pp st r ks.length 0 L ks = .ok (L, ks) := fun h => editL_still pp st ks r ks.length 0 L h
    cases l with
    | list =>
      rw [Still] at h
      rw [edit, noNote_any _ h.1]
      simp only [Bool.false_and, Bool.false_eq_true, if_false]
      rw [inside h.2]
    | lab l =>
      cases l with
      | relative => rw [edit]
      | chordmode => simp [Still] at h
      | _ =>
        rw [Still] at h
        · simp only [edit]
          rw [inside h]
        all_goals simp
theorem editL_still (pp : Langs) (st : Settings) : ∀ (ks : List Doc) (r : Rng) (len i : ℕ) (L : Str), StillL ks → editL pp st r len i L ks = .ok (L, ks)
  | [], r, len, i, L, h => by rw [editL]
  | k :: ks, r, len, i, L, h => by
    rw [StillL] at h
    rw [editL, edit_still pp st k _ _ L h.1, ite_self]
    simp only
    rw [editL_still pp st ks r len (i + 1) L h.2]
end

/-- What is heard of the music in a node, if it is absolute there. -/
theorem open_sounds (t : Tables) (f : Pitch) (l : Lab) (hl : Open l) (A : Str) (ks : List Doc) (m : Mode) (hs : List Heard)
    (h : Hears t f (.abs 0) (mus A (.node l ks)) m hs) :
    ∃ hs1, Hears t f (.abs 0) (musN A 0 ks) (.abs 0) hs1 ∧ ∀ ks' hs1', Hears t f (.abs 0) (musN A 0 ks') (.abs 0) hs1' → pitches hs1' = pitches hs1 →
      ∃ hs', Hears t f (.abs 0) (mus A (.node l ks')) (.abs 0) hs' ∧ pitches hs' = pitches hs := by
  have hm0 : m = .abs 0 := hears_abs_mode _ _ h 0 rfl
  subst hm0
  rw [mus_node] at h
  rcases hl with rfl | rfl | rfl | ⟨p, nd, chk, rfl⟩
  · simp only [Lab.plain, TransposeDoc.Spec.mus] at h
    cases h with
    | group h1 h2 =>
      cases h2 with
      | nil =>
        refine ⟨_, h1, fun ks' hs1' h e => ⟨hs1' ++ [], ?_, by rw [List.append_nil, List.append_nil, e]⟩⟩
        rw [mus_node]
        simp only [Lab.plain, TransposeDoc.Spec.mus]
        exact .group h (.nil _)
  · simp only [Lab.plain, TransposeDoc.Spec.mus] at h
    cases h with
    | group h1 h2 =>
      cases h2 with
      | nil =>
        refine ⟨_, h1, fun ks' hs1' h e => ⟨hs1' ++ [], ?_, by rw [List.append_nil, List.append_nil, e]⟩⟩
        rw [mus_node]
        simp only [Lab.plain, TransposeDoc.Spec.mus]
        exact .group h (.nil _)
  · simp only [Lab.plain, TransposeDoc.Spec.mus] at h
    cases h with
    | absolute h1 h2 =>
      cases h2 with
      | nil =>
        have hm := hears_abs_mode _ _ h1 0 rfl
        subst hm
        refine ⟨_, h1, fun ks' hs1' h e => ⟨hs1' ++ [], ?_, by rw [List.append_nil, List.append_nil, e]⟩⟩
        rw [mus_node]
        simp only [Lab.plain, TransposeDoc.Spec.mus]
        exact .absolute h (.nil _)
  · simp only [Lab.plain, TransposeDoc.Spec.mus] at h
    cases h with
    | @noteAbs _ _ q _ _ _ h0 h =>
      cases h with
      | absolute h1 h2 =>
        cases h2 with
        | nil =>
          have hm := hears_abs_mode _ _ h1 0 rfl
          subst hm
          refine ⟨_, h1, fun ks' hs1' h e => ⟨⟨{q with octave := q.octave + 0}, none⟩ :: (hs1' ++ []), ?_, ?_⟩⟩
          · rw [mus_node]
            simp only [Lab.plain, TransposeDoc.Spec.mus]
            exact .noteAbs h0 (.absolute h (.nil _))
          · simp only [pitches, List.map_cons, List.map_append, List.map_nil, List.append_nil] at e ⊢
            rw [e]

/-- The same for `\transpose`. -/
theorem transpose_sounds (t : Tables) (f : Pitch) (A : Str) (ks : List Doc) (m : Mode) (hs : List Heard)
    (h : Hears t f (.abs 0) (mus A (.node (.lab (.skip .transpose)) ks)) m hs) :
    ∃ hs1, Hears t f (.abs 0) (musN A 2 ks) (.abs 0) hs1 ∧ ∀ ks' hs1', Hears t f (.abs 0) (musN A 2 ks') (.abs 0) hs1' → pitches hs1' = pitches hs1 →
      ∃ hs', Hears t f (.abs 0) (mus A (.node (.lab (.skip .transpose)) ks')) (.abs 0) hs' ∧ pitches hs' = pitches hs := by
  have hm0 : m = .abs 0 := hears_abs_mode _ _ h 0 rfl
  subst hm0
  rw [mus_node] at h
  simp only [Lab.plain, TransposeDoc.Spec.mus] at h
  cases h with
  | apartAbs h1 h2 =>
    cases h2 with
    | nil =>
      have hm := hears_abs_mode _ _ h1 0 rfl
      subst hm
      refine ⟨_, h1, fun ks' hs1' h e => ⟨hs1' ++ [], ?_, by rw [List.append_nil, List.append_nil, e]⟩⟩
      rw [mus_node]
      simp only [Lab.plain, TransposeDoc.Spec.mus]
      exact .apartAbs h (.nil _)

theorem open_after {l : Lab} (hl : Open l) (A : Str) (ks : List Doc) : after A (.node l ks) = afterL A ks := by
  rcases hl with rfl | rfl | rfl | ⟨p, nd, chk, rfl⟩ <;> exact after_node _ _ _ (by simp)

theorem open_edit {l : Lab} (hl : Open l) (pp : Langs) (se : Settings) (r : Rng) (all : Bool) (L L' : Str) (ks ks' : List Doc)
    (hn : ¬ ((l = .list ∧ ks.any Doc.isNote = true) ∧ all = true)) (h : editL pp se r ks.length 0 L ks = .ok (L', ks')) :
    edit pp se r all L (.node l ks) = .ok (L', .node l ks') := by
  rcases hl with rfl | rfl | rfl | ⟨p, nd, chk, rfl⟩
  · rw [edit, if_neg (by simpa using hn), h]
  all_goals simp only [edit]; rw [h]

mutual
theorem edit_fits (pp : Langs) (hd : ∀ l, IsDict (pp l).table) (se : Settings)
    (hc : se.startPitch = true → ∀ lang, ∃ name o, Means (pp lang).table name o 0 0) (st : Path) (en : Option Path) :
    ∀ (d : Doc) (p : Path) (r : Rng) (A L L' : Str) (m : Mode) (hs : List Heard),
    At st en p r → Valid r d → Touched st en p → Fits se.startPitch st en p A L d L' →
    Hears pp.tables (reference se.firstAbs) (.abs 0) (mus A d) m hs →
    ∃ d' hs', edit pp se r (r.whole d) L d = .ok (L', d') ∧ after A d' = after A d ∧
      Hears pp.tables (reference se.firstAbs) (.abs 0) (mus A d') (.abs 0) hs' ∧ pitches hs' = pitches hs
  | .node l ks, p, r, A, L, L', m, hs, ha, hv, ht, hf, hh => by
    have hm0 : m = .abs 0 := hears_abs_mode _ _ hh 0 rfl
    subst hm0
    cases hf with
    | outside h => exact absurd ht h
    | relative h =>
      rw [Doc.lab] at h
      subst h
      exact ⟨_, hs, by rw [edit], rfl, hh, rfl⟩
    | still h => exact ⟨_, hs, edit_still pp se _ _ _ _ h, rfl, hh, rfl⟩
    | tune h1 h2 h3 h4 h5 =>
      rw [mus_node] at hh
      simp only [Lab.plain, TransposeDoc.Spec.mus] at hh
      cases hh with
      | group g1 g2 =>
        cases g2 with
        | nil =>
          obtain ⟨d', hs', e1, e2, e3, e4⟩ := make_sounds pp hd se hc ks A _ _ h3 h4 h5 g1
          refine ⟨d', hs', ?_, ?_, e3, by simpa using e4⟩
          · have hany : ks.any Doc.isNote = true := by
              rw [List.any_eq_true]
              exact h1.2
            rw [edit, (whole_iff ha hv).2 h2, hany]
            simp only [Bool.and_self, if_true]
            exact e1
          · rw [e2, after_node _ _ _ (by simp)]
    | inside _ ho hn hL =>
      obtain ⟨hs1, x1, x2⟩ := open_sounds _ _ l ho A ks _ hs hh
      obtain ⟨ks', hs', e1, e2, e3, e4⟩ := editL_fits pp hd se hc st en ks p r (.node l ks) 0 0 A L L' _ hs1 ha hv (by simp [Doc.kids]) hL x1
      obtain ⟨hs2, y1, y2⟩ := x2 ks' hs' e3 e4
      refine ⟨.node l ks', hs2, open_edit ho pp se r _ L L' ks ks' ?_ e1, ?_, y1, y2⟩
      · rintro ⟨⟨rfl, h1⟩, h2⟩
        rw [List.any_eq_true] at h1
        exact hn ⟨⟨rfl, h1⟩, (whole_iff ha hv).1 h2⟩
      · rw [open_after ho, open_after ho, e2]
    | transpose _ hL =>
      obtain ⟨hs1, x1, x2⟩ := transpose_sounds _ _ A ks _ hs hh
      obtain ⟨ks', hs', e1, e2, e3, e4⟩ := editL_fits pp hd se hc st en ks p r (.node (.lab (.skip .transpose)) ks) 0 2 A L L' _ hs1 ha hv (by simp [Doc.kids]) hL x1
      obtain ⟨hs2, y1, y2⟩ := x2 ks' hs' e3 e4
      refine ⟨.node (.lab (.skip .transpose)) ks', hs2, ?_, ?_, y1, y2⟩
      · simp only [edit]
        rw [show ks.length = (Doc.node (.lab (.skip .transpose)) ks).kids.length from rfl, e1]
      · rw [after_node _ _ _ (by simp), after_node _ _ _ (by simp), e2]
theorem editL_fits (pp : Langs) (hd : ∀ l, IsDict (pp l).table) (se : Settings)
    (hc : se.startPitch = true → ∀ lang, ∃ name o, Means (pp lang).table name o 0 0) (st : Path) (en : Option Path) :
    ∀ (ks : List Doc) (p : Path) (r : Rng) (d : Doc) (i n : ℕ) (A L L' : Str) (m : Mode) (hs : List Heard),
    At st en p r → Valid r d → d.kids.drop i = ks → FitsL se.startPitch st en p i n A L ks L' →
    Hears pp.tables (reference se.firstAbs) (.abs 0) (musN A n ks) m hs →
    ∃ ks' hs', editL pp se r d.kids.length i L ks = .ok (L', ks') ∧ afterL A ks' = afterL A ks ∧
      Hears pp.tables (reference se.firstAbs) (.abs 0) (musN A n ks') (.abs 0) hs' ∧ pitches hs' = pitches hs
  | [], p, r, d, i, n, A, L, L', m, hs, ha, hv, hk, hf, hh => by
    have hm0 : m = .abs 0 := hears_abs_mode _ _ hh 0 rfl
    subst hm0
    cases hf
    exact ⟨[], hs, by rw [editL], rfl, hh, rfl⟩
  | k :: ks, p, r, d, i, n, A, L, L', m, hs, ha, hv, hk, hf, hh => by
    have hki : d.kids[i]? = some k := by
      have := congrArg (·[0]?) hk
      simpa using this
    obtain ⟨hi, -⟩ := List.getElem?_eq_some_iff.1 hki
    have hks : d.kids.drop (i + 1) = ks := by
      have := congrArg List.tail hk
      simpa using this
    cases hf with
    | @cons _ _ _ _ _ L1 _ _ h1 h2 =>
      rw [musN_zero] at hh
      obtain ⟨m1, u, v, x1, x2, rfl⟩ := hears_split _ _ _ _ _ _ _ hh
      have hm0 : m1 = .abs 0 := hears_abs_mode _ _ x1 0 rfl
      subst hm0
      have one : ∃ k' hs1, (if r.start ≤ i ∧ (i : ℤ) ≤ r.stop d.kids.length then edit pp se (r.child d.kids.length i) (r.inRange d.kids.length i k) L k else .ok (L, k)) =
          .ok (L1, k') ∧ after A k' = after A k ∧
          Hears pp.tables (reference se.firstAbs) (.abs 0) (mus A k') (.abs 0) hs1 ∧ pitches hs1 = pitches u := by
        by_cases hr : r.start ≤ i ∧ (i : ℤ) ≤ r.stop d.kids.length
        · rw [if_pos hr, inRange_eq]
          exact edit_fits pp hd se hc st en k _ _ _ _ _ _ _ (at_child ha _ _ hr.1 hr.2) (valid_child hv hki) ((touched_child ha _ _ hi).2 hr) h1 x1
        · rw [if_neg hr]
          have hno : ¬ Touched st en (p ++ [i]) := fun ht => hr ((touched_child ha _ _ hi).1 ht)
          cases h1 with
          | outside _ => exact ⟨k, u, rfl, rfl, x1, rfl⟩
          | relative _ => exact ⟨k, u, rfl, rfl, x1, rfl⟩
          | still _ => exact ⟨k, u, rfl, rfl, x1, rfl⟩
          | tune _ hcomp => exact absurd (by simpa using hcomp [] _ rfl) hno
          | inside ht => exact absurd ht hno
          | transpose ht => exact absurd ht hno
      obtain ⟨k', hs1, a1, a2, a3, a4⟩ := one
      obtain ⟨ks', hs2, b1, b2, b3, b4⟩ := editL_fits pp hd se hc st en ks p r d (i + 1) 0 (after A k) L1 L' _ _ ha hv hks h2 x2
      refine ⟨k' :: ks', hs1 ++ hs2, ?_, ?_, ?_, ?_⟩
      · rw [editL, a1]
        simp only
        rw [b1]
      · rw [afterL_cons, afterL_cons, a2, b2]
      · rw [musN_zero, a2]
        exact hears_append _ _ a3 b3
      · rw [pitches_append, pitches_append, a4, b4]
    | comment h0 h1 h2 =>
      rw [musN_comment _ _ _ _ h0] at hh
      obtain ⟨ks', hs2, b1, b2, b3, b4⟩ := editL_fits pp hd se hc st en ks p r d (i + 1) _ (after A k) L L' _ _ ha hv hks h2 hh
      refine ⟨k :: ks', hs2, ?_, ?_, ?_, b4⟩
      · rw [editL, edit_still pp se k _ _ L h1, ite_self]
        simp only
        rw [b1]
      · rw [afterL_cons, afterL_cons, b2]
      · rw [musN_comment _ _ _ _ h0]
        exact b3
    | skip h0 h1 h2 =>
      rw [musN_succ _ _ _ _ h0] at hh
      obtain ⟨ks', hs2, b1, b2, b3, b4⟩ := editL_fits pp hd se hc st en ks p r d (i + 1) _ (after A k) L L' _ _ ha hv hks h2 hh
      refine ⟨k :: ks', hs2, ?_, ?_, ?_, b4⟩
      · rw [editL, edit_still pp se k _ _ L h1, ite_self]
        simp only
        rw [b1]
      · rw [afterL_cons, afterL_cons, b2]
      · rw [musN_succ _ _ _ _ h0]
        exact b3
end

/-! ## The surrounding document -/

theorem musN_append (A : Str) : ∀ (pre ks : List Doc), musN A 0 (pre ++ ks) = musN A 0 pre ++ musN (afterL A pre) 0 ks
  | [], ks => by rw [musN_nil, afterL_nil]; rfl
  | k :: pre, ks => by rw [List.cons_append, musN_zero, musN_zero, musN_append _ pre ks, afterL_cons, List.append_assoc]

theorem musN_drop (A : Str) : ∀ (n : ℕ) (pre : List Doc), n ≤ (real pre).length → ∃ ms, ∀ ks, musN A n (pre ++ ks) = ms ++ musN (afterL A pre) 0 ks
  | 0, pre, h => ⟨musN A 0 pre, fun ks => musN_append A pre ks⟩
  | n + 1, [], h => by simp [real] at h
  | n + 1, k :: pre, h => by
    by_cases hk : k.lab = .lab .comment
    · have hr : real (k :: pre) = real pre := by simp [real, hk]
      rw [hr] at h
      obtain ⟨ms, hm⟩ := musN_drop (after A k) (n + 1) pre h
      exact ⟨ms, fun ks => by rw [List.cons_append, musN_comment _ _ _ _ hk, hm, afterL_cons]⟩
    · have hr : real (k :: pre) = k :: real pre := by simp [real, hk]
      rw [hr, List.length_cons] at h
      obtain ⟨ms, hm⟩ := musN_drop (after A k) n pre (by omega)
      exact ⟨ms, fun ks => by rw [List.cons_append, musN_succ _ _ _ _ hk, hm, afterL_cons]⟩

theorem afterL_append (A : Str) : ∀ (pre ks : List Doc), afterL A (pre ++ ks) = afterL (afterL A pre) ks
  | [], ks => by rw [afterL_nil]; rfl
  | k :: pre, ks => by rw [List.cons_append, afterL_cons, afterL_cons, afterL_append _ pre ks]

/-- A node that sounds the same can take the place of another one. -/
theorem around_sounds (t : Tables) (f : Pitch) (A A0 : Str) (C : Doc → Doc) (hC : Around A A0 C) (d : Doc) : ∀ (m : Mode) (hs : List Heard),
    Hears t f (.abs 0) (mus A0 (C d)) m hs → ∃ hs1, Hears t f (.abs 0) (mus A d) (.abs 0) hs1 ∧
    ∀ d' hs1', after A d' = after A d → Hears t f (.abs 0) (mus A d') (.abs 0) hs1' → pitches hs1' = pitches hs1 →
      after A0 (C d') = after A0 (C d) ∧ ∃ hs', Hears t f (.abs 0) (mus A0 (C d')) (.abs 0) hs' ∧ pitches hs' = pitches hs := by
  induction hC with
  | here =>
    intro m hs h
    have hm := hears_abs_mode _ _ h 0 rfl
    subst hm
    exact ⟨hs, h, fun d' hs1' h1 h2 h3 => ⟨h1, hs1', h2, h3⟩⟩
  | @inside A0 l pre C post ho _ ih =>
    intro m hs h
    obtain ⟨hs1, x1, x2⟩ := open_sounds t f l ho A0 _ m hs h
    rw [musN_append, musN_zero] at x1
    obtain ⟨m1, u, v, y1, y2, rfl⟩ := hears_split _ _ _ _ _ _ _ x1
    have hm := hears_abs_mode _ _ y1 0 rfl
    subst hm
    obtain ⟨m2, v1, v2, z1, z2, rfl⟩ := hears_split _ _ _ _ _ _ _ y2
    have hm := hears_abs_mode _ _ z1 0 rfl
    subst hm
    obtain ⟨w, w1, w2⟩ := ih _ _ z1
    refine ⟨w, w1, fun d' hs1' h1 h2 h3 => ?_⟩
    obtain ⟨e1, hs2, e2, e3⟩ := w2 d' hs1' h1 h2 h3
    refine ⟨by rw [open_after ho, open_after ho, afterL_append, afterL_append, afterL_cons, afterL_cons, e1], ?_⟩
    refine x2 (pre ++ C d' :: post) (u ++ (hs2 ++ v2)) ?_ ?_
    · rw [musN_append, musN_zero, e1]
      exact hears_append _ _ y1 (hears_append _ _ e2 z2)
    · simp only [pitches_append, e3]
  | @transpose A0 pre C post hp _ ih =>
    intro m hs h
    obtain ⟨hs1, x1, x2⟩ := transpose_sounds t f A0 _ m hs h
    obtain ⟨ms, hms⟩ := musN_drop A0 2 pre hp
    rw [hms, musN_zero] at x1
    obtain ⟨m1, u, v, y1, y2, rfl⟩ := hears_split _ _ _ _ _ _ _ x1
    have hm := hears_abs_mode _ _ y1 0 rfl
    subst hm
    obtain ⟨m2, v1, v2, z1, z2, rfl⟩ := hears_split _ _ _ _ _ _ _ y2
    have hm := hears_abs_mode _ _ z1 0 rfl
    subst hm
    obtain ⟨w, w1, w2⟩ := ih _ _ z1
    refine ⟨w, w1, fun d' hs1' h1 h2 h3 => ?_⟩
    obtain ⟨e1, hs2, e2, e3⟩ := w2 d' hs1' h1 h2 h3
    refine ⟨by rw [after_node _ _ _ (by simp), after_node _ _ _ (by simp), afterL_append, afterL_append, afterL_cons, afterL_cons, e1], ?_⟩
    refine x2 (pre ++ C d' :: post) (u ++ (hs2 ++ v2)) ?_ ?_
    · rw [hms, musN_zero, e1]
      exact hears_append _ _ y1 (hears_append _ _ e2 z2)
    · simp only [pitches_append, e3]

end Quickly.Abs2rel
