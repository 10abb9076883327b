import Verif.Abs2rel.Sim

/-! # What a converted document sounds like -/

namespace Quickly.Abs2rel

open Quickly.Pitch Quickly.Relative Quickly.Abs2rel.Spec Quickly.Relative.Spec
open Quickly.Pitch.Spec (IsDict Means)
open Quickly.Node (Path)

theorem hears_split (t : Tables) (f : Pitch) : ∀ (a b : List Mus) (m m' : Mode) (hs : List Heard), Hears t f m (a ++ b) m' hs →
    ∃ m1 h1 h2, Hears t f m a m1 h1 ∧ Hears t f m1 b m' h2 ∧ hs = h1 ++ h2
  | [], b, m, m', hs, h => ⟨m, [], hs, .nil m, h, rfl⟩
  | x :: a, b, m, m', hs, h => by
    rw [List.cons_append] at h
    cases h with
    | noteAbs h1 h2 =>
      obtain ⟨m1, u, v, e1, e2, rfl⟩ := hears_split t f a b _ _ _ h2
      exact ⟨m1, _, v, .noteAbs h1 e1, e2, rfl⟩
    | noteRel h1 h2 =>
      obtain ⟨m1, u, v, e1, e2, rfl⟩ := hears_split t f a b _ _ _ h2
      exact ⟨m1, _, v, .noteRel h1 e1, e2, rfl⟩
    | chordAbs h1 h2 =>
      obtain ⟨m1, u, v, e1, e2, rfl⟩ := hears_split t f a b _ _ _ h2
      exact ⟨m1, _, v, .chordAbs h1 e1, e2, (List.append_assoc ..).symm⟩
    | chordRel h1 h2 =>
      obtain ⟨m1, u, v, e1, e2, rfl⟩ := hears_split t f a b _ _ _ h2
      exact ⟨m1, _, v, .chordRel h1 e1, e2, (List.append_assoc ..).symm⟩
    | checkAbs h1 h2 =>
      obtain ⟨m1, u, v, e1, e2, rfl⟩ := hears_split t f a b _ _ _ h2
      exact ⟨m1, _, v, .checkAbs h1 e1, e2, rfl⟩
    | checkRel h1 h2 =>
      obtain ⟨m1, u, v, e1, e2, rfl⟩ := hears_split t f a b _ _ _ h2
      exact ⟨m1, _, v, .checkRel h1 e1, e2, rfl⟩
    | key h2 =>
      obtain ⟨m1, u, v, e1, e2, rfl⟩ := hears_split t f a b _ _ _ h2
      exact ⟨m1, _, v, .key e1, e2, rfl⟩
    | group h1 h2 =>
      obtain ⟨m1, u, v, e1, e2, rfl⟩ := hears_split t f a b _ _ _ h2
      exact ⟨m1, _, v, .group h1 e1, e2, (List.append_assoc ..).symm⟩
    | relativeFrom h0 h1 h2 =>
      obtain ⟨m1, u, v, e1, e2, rfl⟩ := hears_split t f a b _ _ _ h2
      exact ⟨m1, _, v, .relativeFrom h0 h1 e1, e2, (List.append_assoc ..).symm⟩
    | relative h1 h2 =>
      obtain ⟨m1, u, v, e1, e2, rfl⟩ := hears_split t f a b _ _ _ h2
      exact ⟨m1, _, v, .relative h1 e1, e2, (List.append_assoc ..).symm⟩
    | fixed h0 h1 h2 =>
      obtain ⟨m1, u, v, e1, e2, rfl⟩ := hears_split t f a b _ _ _ h2
      exact ⟨m1, _, v, .fixed h0 h1 e1, e2, (List.append_assoc ..).symm⟩
    | absolute h1 h2 =>
      obtain ⟨m1, u, v, e1, e2, rfl⟩ := hears_split t f a b _ _ _ h2
      exact ⟨m1, _, v, .absolute h1 e1, e2, (List.append_assoc ..).symm⟩
    | apartAbs h1 h2 =>
      obtain ⟨m1, u, v, e1, e2, rfl⟩ := hears_split t f a b _ _ _ h2
      exact ⟨m1, _, v, .apartAbs h1 e1, e2, (List.append_assoc ..).symm⟩
    | apartRel h1 h2 =>
      obtain ⟨m1, u, v, e1, e2, rfl⟩ := hears_split t f a b _ _ _ h2
      exact ⟨m1, _, v, .apartRel h1 e1, e2, (List.append_assoc ..).symm⟩

/-! ## Where nothing is converted -/

theorem child_whole (len i : ℕ) : Rng.child {} len i = {} := by
  simp [Rng.child]

theorem inRange_whole (len i : ℕ) (d : Doc) : Rng.inRange {} len i d = true := by
  simp [Rng.inRange, child_whole, Rng.whole, endIn]

theorem editL_cons (pp : Langs) (st : Settings) (len i : ℕ) (L L1 L2 : Str) (k k1 : Doc) (ks ks1 : List Doc) (hi : i < len)
    (h1 : edit pp st {} true L k = .ok (L1, k1)) (h2 : editL pp st {} len (i + 1) L1 ks = .ok (L2, ks1)) :
    editL pp st {} len i L (k :: ks) = .ok (L2, k1 :: ks1) := by
  have hc : (Rng.start {} ≤ i ∧ (i : ℤ) ≤ Rng.stop {} len) := by
    constructor
    · simp [Rng.start]
    · simp only [Rng.stop]
      omega
  rw [editL, if_pos hc, child_whole, inRange_whole, h1]
  simp only
  rw [h2]

theorem noNote_any (ks : List Doc) (h : ∀ k ∈ ks, k.isNote = false) : ks.any Doc.isNote = false := by
  rw [List.any_eq_false]
  intro k hk
  rw [h k hk]
  simp

mutual
theorem edit_quiet (pp : Langs) (st : Settings) : ∀ (d : Doc) (L : Str), Quiet d → edit pp st {} true L d = .ok (L, d) ∧ after L d = L
  | .node l ks, L, h => by
    have inside : QuietL ks → editL pp st {} ks.length 0 L ks = .ok (L, ks) ∧ afterL L ks = L := fun h =>
      editL_quiet pp st ks ks.length 0 L (by omega) h
    cases l with
    | list =>
      rw [Quiet] at h
      obtain ⟨a, b⟩ := inside h.2
      refine ⟨?_, by rw [after_node _ _ _ (by simp), b]⟩
      rw [edit, noNote_any _ h.1]
      simp only [Bool.false_and, Bool.false_eq_true, if_false]
      rw [a]
    | lab l =>
      cases l with
      | relative =>
        rw [Quiet] at h
        refine ⟨by rw [edit], ?_⟩
        rw [after_node _ _ _ (by simp)]
        exact TransposeDoc.noLangL_after L _ h
      | chordmode => simp [Quiet] at h
      | language l => simp [Quiet] at h
      | _ =>
        rw [Quiet] at h
        · obtain ⟨a, b⟩ := inside h
          refine ⟨?_, by rw [after_node _ _ _ (by simp), b]⟩
          simp only [edit]
          rw [a]
        all_goals simp
theorem editL_quiet (pp : Langs) (st : Settings) : ∀ (ks : List Doc) (len i : ℕ) (L : Str), i + ks.length ≤ len → QuietL ks →
    editL pp st {} len i L ks = .ok (L, ks) ∧ afterL L ks = L
  | [], len, i, L, hl, h => ⟨by rw [editL], afterL_nil L⟩
  | k :: ks, len, i, L, hl, h => by
    rw [QuietL] at h
    rw [List.length_cons] at hl
    obtain ⟨a, b⟩ := edit_quiet pp st k L h.1
    obtain ⟨c, d⟩ := editL_quiet pp st ks len (i + 1) L (by omega) h.2
    refine ⟨editL_cons _ _ _ _ _ _ _ _ _ _ _ (by omega) a c, ?_⟩
    rw [afterL_cons, b, d]
end

/-! ## A list that is converted -/

theorem make_sounds (pp : Langs) (hd : ∀ l, IsDict (pp l).table) (st : Settings)
    (hc : st.startPitch = true → ∀ lang, ∃ name o, Means (pp lang).table name o 0 0) (ks : List Doc) (L : Str) (m : Mode) (hs : List Heard)
    (hf : FollowedL ks) (hm : MelodyL (musL L ks)) (hl : st.startPitch = true → ∀ l, firstLangL L ks = some l → l = L)
    (hh : Hears pp.tables (reference st.firstAbs) (.abs 0) (musL L ks) m hs) :
    ∃ d' hs', make pp st L (.node .list ks) = .ok (afterL L ks, d') ∧ after L d' = afterL L ks ∧
      Hears pp.tables (reference st.firstAbs) (.abs 0) (mus L d') (.abs 0) hs' ∧ pitches hs' = pitches hs := by
  obtain ⟨s', ms2, a1, a2⟩ := hears_relList_first pp hd st hc _ hh rfl hm
  obtain ⟨ks', b1, b2, b3, b4⟩ := notesL_sim pp st ks {} s' L ms2 hf hm a1
  have hmus : musL L ks' = ms2 := b2
  have e : make pp st L (.node .list ks) = .ok (afterL L ks, .node (.lab .relative) (s'.start.toList.map startNode ++ [.node .list ks'])) := by
    rw [make, b1]
  have b4 := b4.2 rfl
  have group : mus L (.node .list ks') = [.group ms2] := by
    rw [mus_node, ← hmus]
    simp [Lab.plain, TransposeDoc.Spec.mus, musL]
  have none_ : s'.start = none → mus L (.node (.lab .relative) (s'.start.toList.map startNode ++ [.node .list ks'])) = [.relative none [.group ms2]] ∧
      after L (.node (.lab .relative) (s'.start.toList.map startNode ++ [.node .list ks'])) = afterL L ks := by
    intro h
    rw [h]
    constructor
    · rw [← group, mus_node]
      simp [Lab.plain, TransposeDoc.Spec.mus, toDocs, toDoc, TransposeDoc.Spec.start?, TransposeDoc.Spec.real, Rel2abs.Doc.lab, TransposeDoc.Spec.musL, mus]
    · rw [after_node _ _ _ (by simp)]
      simp only [Option.toList, List.map_nil, List.nil_append]
      rw [afterL_cons, afterL_nil, after_node _ _ _ (by simp), b3]
  have some_ : ∀ x, s'.start = some x → st.startPitch = true → (∀ l, firstLangL L ks = some l → l = L) →
      mus L (.node (.lab .relative) (s'.start.toList.map startNode ++ [.node .list ks'])) = [.relative (some x) [.group ms2]] ∧
      after L (.node (.lab .relative) (s'.start.toList.map startNode ++ [.node .list ks'])) = afterL L ks := by
    intro x h hsp hl
    have hx : ∃ nd, x = { node := nd, lang := L } := by
      split at b4
      · rw [b4] at h
        cases h
      · rename_i l e
        obtain ⟨nd, hx⟩ := b4.2 x h
        exact ⟨nd, by rw [hx, hl l e]⟩
    obtain ⟨nd, rfl⟩ := hx
    rw [h]
    constructor
    · rw [← group, mus_node]
      simp [Lab.plain, TransposeDoc.Spec.mus, toDocs, toDoc, TransposeDoc.Spec.start?, TransposeDoc.Spec.real, Rel2abs.Doc.lab, TransposeDoc.Spec.musL, mus,
        startNode, TransposeDoc.Spec.note?, TransposeDoc.Spec.after, TransposeDoc.Spec.afterL]
    · rw [after_node _ _ _ (by simp)]
      simp only [Option.toList, List.map_cons, List.map_nil, List.cons_append, List.nil_append]
      have : after L (startNode { node := nd, lang := L }) = L := by
        rw [startNode, after_node _ _ _ (by simp), afterL_nil]
      rw [afterL_cons, afterL_cons, afterL_nil, this, after_node _ _ _ (by simp), b3]
  rcases a2 with ⟨h0, a2⟩ | ⟨ref, l', hs2, _, e2, a2, a3⟩
  · obtain ⟨hs2, x, y⟩ := a2 (reference st.firstAbs)
    obtain ⟨c1, c2⟩ := none_ (by rw [h0])
    refine ⟨_, hs2, e, c2, ?_, y⟩
    rw [c1]
    have := Hears.relative (m := .abs 0) (.group x (.nil _)) (.nil _)
    simpa using this
  · unfold RefOk at e2
    split at e2
    · rename_i hsp
      obtain ⟨n, hn, hr⟩ := e2
      obtain ⟨c1, c2⟩ := some_ n hn hsp (hl hsp)
      refine ⟨_, hs2, e, c2, ?_, a3⟩
      rw [c1]
      have := Hears.relativeFrom (m := .abs 0) hr (.group a2 (.nil _)) (.nil _)
      simpa using this
    · obtain ⟨c1, c2⟩ := none_ e2.1
      refine ⟨_, hs2, e, c2, ?_, a3⟩
      rw [c1]
      rw [e2.2] at a2
      have := Hears.relative (m := .abs 0) (.group a2 (.nil _)) (.nil _)
      simpa using this

/-! ## The whole document -/

/-- The nodes that are not a comment. -/
def real (ks : List Doc) : List Doc := ks.filter fun k => k.lab ≠ .lab .comment

/-- The music after the first `n` nodes. -/
def musN (L : Str) (n : ℕ) (ks : List Doc) : List Mus := TransposeDoc.Spec.musL (fun _ => true) L n (toDocs ks)

theorem musN_nil (L : Str) (n : ℕ) : musN L n [] = [] := by
  cases n <;> simp [musN, toDocs, TransposeDoc.Spec.musL]

theorem musN_zero (L : Str) (k : Doc) (ks : List Doc) : musN L 0 (k :: ks) = mus L k ++ musN (after L k) 0 ks := musL_cons L k ks

theorem plain_comment (k : Doc) : (toDoc k).lab = .comment ↔ k.lab = .lab .comment := by
  cases k with
  | node l ks =>
    cases l with
    | list => simp [toDoc, Rel2abs.Doc.lab, Lab.plain, Doc.lab]
    | lab l => simp [toDoc, Rel2abs.Doc.lab, Lab.plain, Doc.lab]

theorem musN_comment (L : Str) (n : ℕ) (k : Doc) (ks : List Doc) (h : k.lab = .lab .comment) : musN L (n + 1) (k :: ks) = musN (after L k) (n + 1) ks := by
  rw [musN, toDocs, TransposeDoc.Spec.musL, if_pos ((plain_comment k).2 h)]
  rfl

theorem musN_succ (L : Str) (n : ℕ) (k : Doc) (ks : List Doc) (h : k.lab ≠ .lab .comment) : musN L (n + 1) (k :: ks) = musN (after L k) n ks := by
  rw [musN, toDocs, TransposeDoc.Spec.musL, if_neg (fun e => h ((plain_comment k).1 e))]
  rfl

mutual
theorem edit_sounds (pp : Langs) (hd : ∀ l, IsDict (pp l).table) (st : Settings)
    (hc : st.startPitch = true → ∀ lang, ∃ name o, Means (pp lang).table name o 0 0) : ∀ (d : Doc) (L : Str) (m : Mode) (hs : List Heard),
    Fine st.startPitch L d → Hears pp.tables (reference st.firstAbs) (.abs 0) (mus L d) m hs →
    ∃ d' hs', edit pp st {} true L d = .ok (after L d, d') ∧ after L d' = after L d ∧
      Hears pp.tables (reference st.firstAbs) (.abs 0) (mus L d') (.abs 0) hs' ∧ pitches hs' = pitches hs
  | .node l ks, L, m, hs, h, hh => by
    have hm0 : m = .abs 0 := hears_abs_mode _ _ hh 0 rfl
    subst hm0
    have inside : ∀ n hs m, FineL st.startPitch L ks → (∀ k ∈ (real ks).take n, Quiet k) →
        Hears pp.tables (reference st.firstAbs) (.abs 0) (musN L n ks) m hs → _ := fun n hs m h hq hh =>
      editL_sounds pp hd st hc ks ks.length 0 L n m hs (by omega) h hq hh
    have still : edit pp st {} true L (.node l ks) = .ok (L, .node l ks) → after L (.node l ks) = L →
        ∃ d' hs', edit pp st {} true L (.node l ks) = .ok (after L (.node l ks), d') ∧ after L d' = after L (.node l ks) ∧
      Hears pp.tables (reference st.firstAbs) (.abs 0) (mus L d') (.abs 0) hs' ∧ pitches hs' = pitches hs := by
      intro h1 h2
      exact ⟨_, hs, by rw [h1, h2], rfl, hh, rfl⟩
    have quiet : Quiet (.node l ks) → ∃ d' hs', edit pp st {} true L (.node l ks) = .ok (after L (.node l ks), d') ∧ after L d' = after L (.node l ks) ∧
      Hears pp.tables (reference st.firstAbs) (.abs 0) (mus L d') (.abs 0) hs' ∧ pitches hs' = pitches hs := by
      intro hq
      obtain ⟨a, b⟩ := edit_quiet pp st _ L hq
      exact still a b
    cases l with
    | list =>
      rw [Fine] at h
      rw [mus_node] at hh
      simp only [Lab.plain, TransposeDoc.Spec.mus] at hh
      cases hh with
      | group h1 h2 =>
        cases h2 with
        | nil =>
          rcases h with ⟨⟨k, hk, hn⟩, hf, hm, hl⟩ | ⟨hn, hf⟩
          · obtain ⟨d', hs', e1, e2, e3, e4⟩ := make_sounds pp hd st hc ks L _ _ hf hm hl h1
            refine ⟨d', hs', ?_, ?_, e3, by simpa using e4⟩
            · rw [edit]
              have : ks.any Doc.isNote = true := by
                rw [List.any_eq_true]
                exact ⟨k, hk, hn⟩
              rw [this]
              simp only [Bool.and_self, if_true]
              rw [e1, after_node _ _ _ (by simp)]
            · rw [e2, after_node _ _ _ (by simp)]
          · obtain ⟨ks', hs', e1, e2, e4, e5⟩ := inside 0 _ _ hf (by simp) h1
            refine ⟨.node .list ks', hs', ?_, ?_, ?_, by simpa using e5⟩
            · rw [edit, noNote_any _ hn]
              simp only [Bool.false_and, Bool.false_eq_true, if_false]
              rw [e1, after_node _ _ _ (by simp)]
            · rw [after_node _ _ _ (by simp), after_node _ _ _ (by simp), e2]
            · rw [mus_node]
              simp only [Lab.plain, TransposeDoc.Spec.mus]
              have := Hears.group e4 (.nil _)
              rw [List.append_nil] at this
              exact this
    | lab l =>
      cases l with
      | note p nd chk =>
        rw [Fine] at h
        · rw [mus_node] at hh
          simp only [Lab.plain, TransposeDoc.Spec.mus] at hh
          cases hh with
          | @noteAbs _ _ q _ _ _ h1 h2 =>
            cases h2 with
            | absolute h3 h4 =>
              cases h4 with
              | nil =>
                obtain ⟨ks', hs', e1, e2, e4, e5⟩ := inside 0 _ _ h (by simp) h3
                refine ⟨.node (.lab (.note p nd chk)) ks', ⟨{q with octave := q.octave + 0}, none⟩ :: (hs' ++ []), ?_, ?_, ?_, ?_⟩
                · simp only [edit]
                  rw [e1, after_node _ _ _ (by simp)]
                · rw [after_node _ _ _ (by simp), after_node _ _ _ (by simp), e2]
                · rw [mus_node]
                  simp only [Lab.plain, TransposeDoc.Spec.mus]
                  exact .noteAbs h1 (.absolute e4 (.nil _))
                · simp only [pitches, List.map_cons, List.map_append, List.map_nil, List.append_nil] at e5 ⊢
                  rw [e5]
        all_goals simp
      | chord =>
        rw [Fine] at h
        exact quiet (by rw [Quiet] <;> simp_all)
      | check =>
        rw [Fine] at h
        exact quiet (by rw [Quiet] <;> simp_all)
      | relative =>
        rw [Fine] at h
        exact quiet (by rw [Quiet]; exact h)
      | chordmode => simp [Fine] at h
      | language l =>
        rw [Fine] at h
        obtain ⟨a, b⟩ := editL_quiet pp st ks ks.length 0 L (by omega) h.2
        refine still ?_ ?_
        · simp only [edit]
          rw [a]
        · rw [after, toDoc]
          simp only [Lab.plain, TransposeDoc.Spec.after]
          exact h.1
      | comment =>
        rw [Fine] at h
        subst h
        exact quiet (by rw [Quiet, QuietL] <;> simp)
      | skip k =>
        cases k with
        | absolute =>
          rw [Fine] at h
          · rw [mus_node] at hh
            simp only [Lab.plain, TransposeDoc.Spec.mus] at hh
            cases hh with
            | absolute h3 h4 =>
              cases h4 with
              | nil =>
                obtain ⟨ks', hs', e1, e2, e4, e5⟩ := inside 0 _ _ h (by simp) h3
                refine ⟨.node (.lab (.skip .absolute)) ks', hs' ++ [], ?_, ?_, ?_, ?_⟩
                · simp only [edit]
                  rw [e1, after_node _ _ _ (by simp)]
                · rw [after_node _ _ _ (by simp), after_node _ _ _ (by simp), e2]
                · rw [mus_node]
                  simp only [Lab.plain, TransposeDoc.Spec.mus]
                  exact .absolute e4 (.nil _)
                · rw [List.append_nil, List.append_nil, e5]
          all_goals simp
        | transpose =>
          rw [Fine] at h
          rw [mus_node] at hh
          simp only [Lab.plain, TransposeDoc.Spec.mus] at hh
          cases hh with
          | apartAbs h3 h4 =>
            cases h4 with
            | nil =>
              obtain ⟨ks', hs', e1, e2, e4, e5⟩ := inside 2 _ _ h.2 h.1 h3
              refine ⟨.node (.lab (.skip .transpose)) ks', hs' ++ [], ?_, ?_, ?_, ?_⟩
              · simp only [edit]
                rw [e1, after_node _ _ _ (by simp)]
              · rw [after_node _ _ _ (by simp), after_node _ _ _ (by simp), e2]
              · rw [mus_node]
                simp only [Lab.plain, TransposeDoc.Spec.mus]
                exact .apartAbs e4 (.nil _)
              · rw [List.append_nil, List.append_nil, e5]
        | fixed =>
          rw [Fine] at h
          exact quiet (by rw [Quiet] <;> simp_all)
        | key =>
          rw [Fine] at h
          exact quiet (by rw [Quiet] <;> simp_all)
        | silent =>
          rw [Fine] at h
          exact quiet (by rw [Quiet] <;> simp_all)
      | other =>
        rw [Fine] at h
        · rw [mus_node] at hh
          simp only [Lab.plain, TransposeDoc.Spec.mus] at hh
          cases hh with
          | group h3 h4 =>
            cases h4 with
            | nil =>
              obtain ⟨ks', hs', e1, e2, e4, e5⟩ := inside 0 _ _ h (by simp) h3
              refine ⟨.node (.lab .other) ks', hs' ++ [], ?_, ?_, ?_, ?_⟩
              · simp only [edit]
                rw [e1, after_node _ _ _ (by simp)]
              · rw [after_node _ _ _ (by simp), after_node _ _ _ (by simp), e2]
              · rw [mus_node]
                simp only [Lab.plain, TransposeDoc.Spec.mus]
                exact .group e4 (.nil _)
              · rw [List.append_nil, List.append_nil, e5]
        all_goals simp
theorem editL_sounds (pp : Langs) (hd : ∀ l, IsDict (pp l).table) (st : Settings)
    (hc : st.startPitch = true → ∀ lang, ∃ name o, Means (pp lang).table name o 0 0) : ∀ (ks : List Doc) (len i : ℕ) (L : Str) (n : ℕ) (m : Mode) (hs : List Heard),
    i + ks.length ≤ len → FineL st.startPitch L ks → (∀ k ∈ (real ks).take n, Quiet k) →
    Hears pp.tables (reference st.firstAbs) (.abs 0) (musN L n ks) m hs →
    ∃ ks' hs', editL pp st {} len i L ks = .ok (afterL L ks, ks') ∧ afterL L ks' = afterL L ks ∧
      Hears pp.tables (reference st.firstAbs) (.abs 0) (musN L n ks') (.abs 0) hs' ∧ pitches hs' = pitches hs
  | [], len, i, L, n, m, hs, hl, h, hq, hh => by
    have hm0 : m = .abs 0 := hears_abs_mode _ _ hh 0 rfl
    subst hm0
    exact ⟨[], hs, by rw [editL, afterL_nil], rfl, hh, rfl⟩
  | k :: ks, len, i, L, 0, m, hs, hl, h, hq, hh => by
    rw [FineL] at h
    rw [List.length_cons] at hl
    rw [musN_zero] at hh
    obtain ⟨m1, h1, h2, x1, x2, rfl⟩ := hears_split _ _ _ _ _ _ _ hh
    have hm0 : m1 = .abs 0 := hears_abs_mode _ _ x1 0 rfl
    subst hm0
    obtain ⟨k', hs1, a1, a2, a3, a4⟩ := edit_sounds pp hd st hc k L _ _ h.1 x1
    obtain ⟨ks', hs2, b1, b2, b4, b5⟩ := editL_sounds pp hd st hc ks len (i + 1) (after L k) 0 _ _ (by omega) h.2 (by simp) x2
    refine ⟨k' :: ks', hs1 ++ hs2, editL_cons _ _ _ _ _ _ _ _ _ _ _ (by omega) a1 (by rw [b1, afterL_cons]), ?_, ?_, ?_⟩
    · rw [afterL_cons, afterL_cons, a2, b2]
    · rw [musN_zero, a2]
      exact hears_append _ _ a3 b4
    · rw [pitches_append, pitches_append, a4, b5]
  | k :: ks, len, i, L, n + 1, m, hs, hl, h, hq, hh => by
    rw [FineL] at h
    rw [List.length_cons] at hl
    by_cases hk : k.lab = .lab .comment
    · have hr : real (k :: ks) = real ks := by simp [real, hk]
      rw [musN_comment _ _ _ _ hk] at hh
      rw [hr] at hq
      obtain ⟨ks', hs2, b1, b2, b4, b5⟩ := editL_sounds pp hd st hc ks len (i + 1) (after L k) (n + 1) _ _ (by omega) h.2 hq hh
      have hqk : Quiet k := by
        cases k with
        | node l gs =>
          rw [Doc.lab] at hk
          subst hk
          rw [Fine] at h
          rw [h.1, Quiet, QuietL] <;> simp
      obtain ⟨q1, q2⟩ := edit_quiet pp st k L hqk
      refine ⟨k :: ks', hs2, editL_cons _ _ _ _ _ L _ _ _ _ _ (by omega) q1 (by rw [q2] at b1; rw [b1, afterL_cons, q2]), ?_, ?_, b5⟩
      · rw [afterL_cons, afterL_cons, b2]
      · rw [musN_comment _ _ _ _ hk]
        exact b4
    · have hr : real (k :: ks) = k :: real ks := by simp [real, hk]
      rw [musN_succ _ _ _ _ hk] at hh
      rw [hr, List.take_succ_cons] at hq
      obtain ⟨ks', hs2, b1, b2, b4, b5⟩ := editL_sounds pp hd st hc ks len (i + 1) (after L k) n _ _ (by omega) h.2
        (fun x hx => hq x (List.mem_cons_of_mem _ hx)) hh
      obtain ⟨q1, q2⟩ := edit_quiet pp st k L (hq k List.mem_cons_self)
      refine ⟨k :: ks', hs2, editL_cons _ _ _ _ _ L _ _ _ _ _ (by omega) q1 (by rw [q2] at b1; rw [b1, afterL_cons, q2]), ?_, ?_, b5⟩
      · rw [afterL_cons, afterL_cons, b2]
      · rw [musN_succ _ _ _ _ hk]
        exact b4
end

end Quickly.Abs2rel
