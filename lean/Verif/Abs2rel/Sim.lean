import Verif.Abs2rel.Frame
import Verif.Relative.Props
import Verif.TransposeDoc.Sim

/-! # Converting a document and converting its music -/

namespace Quickly.Abs2rel

open Quickly.Pitch Quickly.Relative Quickly.Abs2rel.Spec Quickly.Relative.Spec
open Quickly.Pitch.Spec (IsDict Means)
open Quickly.Node (Path)

theorem mus_node (L : Str) (l : Lab) (ks : List Doc) : mus L (.node l ks) = TransposeDoc.Spec.mus (fun _ => true) L (.node 0 (Lab.plain l) (toDocs ks)) := by
  rw [mus, toDoc]

theorem after_node (L : Str) (l : Lab) (ks : List Doc) (h : ∀ x, l ≠ .lab (.language x)) : after L (.node l ks) = afterL L ks := by
  rw [after, toDoc, afterL]
  cases l with
  | list => simp [Lab.plain, TransposeDoc.Spec.after]
  | lab l =>
    cases l with
    | language x => exact (h x rfl).elim
    | _ => simp [Lab.plain, TransposeDoc.Spec.after]

theorem musL_nil (L : Str) : musL L [] = [] := by
  simp [musL, toDocs, TransposeDoc.Spec.musL]

theorem musL_cons (L : Str) (k : Doc) (ks : List Doc) : musL L (k :: ks) = mus L k ++ musL (after L k) ks := by
  simp [musL, toDocs, TransposeDoc.Spec.musL, mus, after]

theorem afterL_nil (L : Str) : afterL L [] = L := by
  simp [afterL, toDocs, TransposeDoc.Spec.afterL]

theorem afterL_cons (L : Str) (k : Doc) (ks : List Doc) : afterL L (k :: ks) = afterL (after L k) ks := by
  simp [afterL, after, toDocs, TransposeDoc.Spec.afterL]

theorem relList_append (pp : Langs) (st : Settings) : ∀ (a b : List Mus) (s s' : RelState) (ms' : List Mus),
    relList pp st s (a ++ b) = .ok (s', ms') →
    ∃ s1 a' b', relList pp st s a = .ok (s1, a') ∧ relList pp st s1 b = .ok (s', b') ∧ ms' = a' ++ b'
  | [], b, s, s', ms', h => ⟨s, [], ms', by rw [relList], h, rfl⟩
  | x :: a, b, s, s', ms', h => by
    rw [List.cons_append, relList] at h
    split at h
    · cases h
    · rename_i s1 m e1
      split at h
      · cases h
      · rename_i s2 ms e2
        cases h
        obtain ⟨s3, a', b', h1, h2, h3⟩ := relList_append pp st a b _ _ _ e2
        refine ⟨s3, m :: a', b', relList_cons pp st _ _ _ _ _ _ _ e1 h1, h2, by rw [h3]; rfl⟩

theorem relList_keys (pp : Langs) (st : Settings) (s : RelState) (ns : List Note) :
    relList pp st s (ns.map Mus.key) = .ok (s, ns.map Mus.key) := by
  induction ns with
  | nil => rw [List.map_nil, relList]
  | cons n ns ih => exact relList_cons pp st _ _ _ _ _ _ _ (by rw [relMus]) ih

theorem relNote_shape (pp : Langs) (st : Settings) (s s' : RelState) (n n' : Note) (h : relNote pp st s n = .ok (s', n')) :
    n' = { n with node := n'.node } ∧ s'.last.isSome = true ∧ (s.last.isSome = true → s'.start = s.start) ∧
      (s.last = none → ∀ x, s'.start = some x → ∃ nd, x = { node := nd, lang := n.lang }) := by
  unfold relNote at h
  split at h
  · cases h
  · simp only at h
    split at h
    · cases h
    · rename_i l start hl
      split at h
      · cases h
      · cases h
        refine ⟨rfl, rfl, ?_, ?_⟩
        · intro hs
          split at hl
          · cases hl
            rfl
          · rename_i e0
            rw [e0] at hs
            cases hs
        · intro hs x hx
          split at hl
          · rename_i e0
            rw [e0] at hs
            cases hs
          · unfold getFirstPitch at hl
            split at hl
            · simp only at hl
              split at hl
              · cases hl
              · cases hl
                simp only [Option.some.injEq] at hx
                exact ⟨_, hx.symm⟩
            · cases hl
              cases hx

/-- Music that is passed over. -/
theorem skip_mus (pp : Langs) (st : Settings) (s s' : RelState) (L : Str) (k : Rel2abs.Skip) (ks : List Doc) (ms' : List Mus)
    (h : relList pp st s (mus L (.node (.lab (.skip k)) ks)) = .ok (s', ms')) : s' = s ∧ ms' = mus L (.node (.lab (.skip k)) ks) := by
  rw [mus_node] at h ⊢
  have one : ∀ m : Mus, relMus pp st s m = .ok (s, m) → relList pp st s [m] = .ok (s', ms') → s' = s ∧ ms' = [m] := by
    intro m hm h
    rw [relList_cons pp st _ _ _ _ _ _ _ hm (by rw [relList])] at h
    cases h
    exact ⟨rfl, rfl⟩
  cases k with
  | absolute =>
    simp only [Lab.plain, TransposeDoc.Spec.mus] at h ⊢
    exact one _ (by rw [relMus]) h
  | fixed =>
    simp only [Lab.plain, TransposeDoc.Spec.mus] at h ⊢
    split at h
    · exact one _ (by rw [relMus]) h
    · exact one _ (by rw [relMus]) h
  | transpose =>
    simp only [Lab.plain, TransposeDoc.Spec.mus] at h ⊢
    exact one _ (by rw [relMus]) h
  | key =>
    simp only [Lab.plain, TransposeDoc.Spec.mus] at h ⊢
    rw [relList_keys] at h
    cases h
    exact ⟨rfl, rfl⟩
  | silent =>
    simp only [Lab.plain, TransposeDoc.Spec.mus] at h ⊢
    rw [relList] at h
    cases h
    exact ⟨rfl, rfl⟩

/-- What is known of the start pitch: it is in the language of the first note. -/
def StartIn (s s' : RelState) (first : Option Str) : Prop :=
  (s.last.isSome = true → s'.last.isSome = true ∧ s'.start = s.start) ∧
  (s.last = none → match first with
    | none => s' = s
    | some l => s'.last.isSome = true ∧ ∀ x, s'.start = some x → ∃ nd, x = { node := nd, lang := l })

theorem StartIn.refl (s : RelState) : StartIn s s none := ⟨fun h => ⟨h, rfl⟩, fun _ => rfl⟩

mutual
theorem notes_sim (pp : Langs) (st : Settings) : ∀ (d : Doc) (s s' : RelState) (L : Str) (ms' : List Mus), Followed d → MelodyL (mus L d) →
    relList pp st s (mus L d) = .ok (s', ms') →
    ∃ d', notes pp st s L d = .ok (s', after L d, d') ∧ mus L d' = ms' ∧ after L d' = after L d ∧ StartIn s s' (firstLang L d)
  | .node l ks, s, s', L, ms', hf, hm, h => by
    have group : ∀ l, Lab.plain l = .other → FollowedL ks → MelodyL (mus L (.node l ks)) → relList pp st s (mus L (.node l ks)) = .ok (s', ms') →
        ∃ ks', notesL pp st s L ks = .ok (s', afterL L ks, ks') ∧ mus L (.node l ks') = ms' ∧ afterL L ks' = afterL L ks ∧
          StartIn s s' (firstLangL L ks) := by
      intro l hl hf hm h
      rw [mus_node, hl] at h hm
      simp only [TransposeDoc.Spec.mus] at h hm
      rw [MelodyL, Melody] at hm
      rw [relList, relMus] at h
      split at h
      · cases h
      · rename_i s1 m e
        split at e
        · cases e
        · rename_i s2 ms2 e2
          cases e
          rw [relList] at h
          cases h
          obtain ⟨ks', a1, a2, a3, a4⟩ := notesL_sim pp st ks s s' L ms2 hf hm.1 e2
          refine ⟨ks', a1, ?_, a3, a4⟩
          rw [mus_node, hl]
          simp only [TransposeDoc.Spec.mus]
          rw [← a2, musL]
    cases l with
    | list =>
      rw [Followed] at hf
      · obtain ⟨ks', a1, a2, a3, a4⟩ := group .list rfl hf hm h
        refine ⟨.node .list ks', ?_, a2, ?_, ?_⟩
        · simp only [notes]
          rw [a1, after_node _ _ _ (by simp)]
        · rw [after_node _ _ _ (by simp), after_node _ _ _ (by simp), a3]
        · simpa only [firstLang] using a4
      all_goals simp
    | lab l =>
      cases l with
      | note p nd chk =>
        rw [Followed] at hf
        have ha : afterL L ks = L := TransposeDoc.noLangL_after L _ hf
        rw [mus_node] at h
        simp only [Lab.plain, TransposeDoc.Spec.mus] at h
        rw [relList, relMus] at h
        split at h
        · cases h
        · rename_i s1 m1 e1
          split at e1
          · cases e1
          · rename_i s2 n2 e2
            cases e1
            rw [relList_cons pp st _ _ _ _ _ _ _ (by rw [relMus]) (by rw [relList])] at h
            cases h
            obtain ⟨b1, b2, b3, b4⟩ := relNote_shape pp st _ _ _ _ e2
            refine ⟨.node (.lab (.note p n2.node n2.check)) ks, ?_, ?_, ?_, ?_⟩
            · rw [notes, e2, after_node _ _ _ (by simp), ha]
            · rw [mus_node]
              simp only [Lab.plain, TransposeDoc.Spec.mus]
              rw [b1]
            · rw [after_node _ _ _ (by simp), after_node _ _ _ (by simp)]
            · rw [firstLang]
              exact ⟨fun hs => ⟨b2, b3 hs⟩, fun hs => ⟨b2, b4 hs⟩⟩
      | chord =>
        rw [mus_node] at hm
        simp [Lab.plain, TransposeDoc.Spec.mus, MelodyL, Melody] at hm
      | check =>
        simp [Followed] at hf
      | relative =>
        rw [mus_node] at hm
        simp [Lab.plain, TransposeDoc.Spec.mus, MelodyL, Melody] at hm
      | chordmode =>
        rw [mus_node] at hm
        simp [Lab.plain, TransposeDoc.Spec.mus, MelodyL, Melody] at hm
      | skip k =>
        rw [Followed] at hf
        have ha : afterL L ks = L := TransposeDoc.noLangL_after L _ hf
        obtain ⟨rfl, rfl⟩ := skip_mus pp st s s' L k ks ms' h
        refine ⟨.node (.lab (.skip k)) ks, ?_, rfl, rfl, ?_⟩
        · rw [notes, after_node _ _ _ (by simp), ha]
        · rw [firstLang]
          exact StartIn.refl _
      | language l =>
        rw [mus_node] at h
        simp only [Lab.plain, TransposeDoc.Spec.mus] at h
        rw [relList] at h
        cases h
        refine ⟨.node (.lab (.language l)) ks, ?_, ?_, rfl, ?_⟩
        · rw [notes]
          simp [after, toDoc, Lab.plain, TransposeDoc.Spec.after]
        · rw [mus_node]
          simp only [Lab.plain, TransposeDoc.Spec.mus]
        · rw [firstLang]
          exact StartIn.refl _
      | comment =>
        rw [Followed] at hf
        subst hf
        rw [mus_node] at h
        simp only [Lab.plain, TransposeDoc.Spec.mus] at h
        rw [relList] at h
        cases h
        refine ⟨.node (.lab .comment) [], ?_, ?_, rfl, ?_⟩
        · simp only [notes, notesL]
          rw [after_node _ _ _ (by simp), afterL_nil]
        · rw [mus_node]
          simp only [Lab.plain, TransposeDoc.Spec.mus]
        · simp only [firstLang, firstLangL]
          exact StartIn.refl _
      | other =>
        rw [Followed] at hf
        · obtain ⟨ks', a1, a2, a3, a4⟩ := group (.lab .other) rfl hf hm h
          refine ⟨.node (.lab .other) ks', ?_, a2, ?_, ?_⟩
          · simp only [notes]
            rw [a1, after_node _ _ _ (by simp)]
          · rw [after_node _ _ _ (by simp), after_node _ _ _ (by simp), a3]
          · simpa only [firstLang] using a4
        all_goals simp
theorem notesL_sim (pp : Langs) (st : Settings) : ∀ (ks : List Doc) (s s' : RelState) (L : Str) (ms' : List Mus), FollowedL ks → MelodyL (musL L ks) →
    relList pp st s (musL L ks) = .ok (s', ms') →
    ∃ ks', notesL pp st s L ks = .ok (s', afterL L ks, ks') ∧ musL L ks' = ms' ∧ afterL L ks' = afterL L ks ∧ StartIn s s' (firstLangL L ks)
  | [], s, s', L, ms', hf, hm, h => by
    rw [musL_nil, relList] at h
    cases h
    exact ⟨[], by rw [notesL, afterL_nil], musL_nil L, rfl, by rw [firstLangL]; exact StartIn.refl _⟩
  | k :: ks, s, s', L, ms', hf, hm, h => by
    rw [FollowedL] at hf
    rw [musL_cons] at h hm
    have hm' : MelodyL (mus L k) ∧ MelodyL (musL (after L k) ks) := by
      have : ∀ a b : List Mus, MelodyL (a ++ b) → MelodyL a ∧ MelodyL b := by
        intro a b
        induction a with
        | nil => intro h; exact ⟨by rw [MelodyL]; trivial, h⟩
        | cons x a ih =>
          intro h
          rw [List.cons_append, MelodyL] at h
          obtain ⟨h1, h2⟩ := ih h.2
          exact ⟨by rw [MelodyL]; exact ⟨h.1, h1⟩, h2⟩
      exact this _ _ hm
    obtain ⟨s1, a', b', h1, h2, rfl⟩ := relList_append pp st _ _ _ _ _ h
    obtain ⟨k', x1, x2, x3, x4⟩ := notes_sim pp st k _ _ _ _ hf.1 hm'.1 h1
    obtain ⟨ks', y1, y2, y3, y4⟩ := notesL_sim pp st ks _ _ _ _ hf.2 hm'.2 h2
    refine ⟨k' :: ks', ?_, ?_, ?_, ?_⟩
    · rw [notesL, x1]
      simp only
      rw [y1, afterL_cons]
    · rw [musL_cons, x2, x3, y2]
    · rw [afterL_cons, afterL_cons, x3, y3]
    · rw [firstLangL]
      constructor
      · intro hs
        obtain ⟨e1, e2⟩ := x4.1 hs
        obtain ⟨e3, e4⟩ := y4.1 e1
        exact ⟨e3, e4.trans e2⟩
      · intro hs
        have := x4.2 hs
        split at this
        · rename_i e
          subst this
          rw [e]
          exact y4.2 hs
        · rename_i l e
          rw [e]
          obtain ⟨e3, e4⟩ := y4.1 this.1
          refine ⟨e3, fun x hx => this.2 x (by rw [← e4]; exact hx)⟩
end

end Quickly.Abs2rel
