import Verif.TransposeDoc.Spec
import Verif.Relative.Lemmas

/-! # Only pitches change -/

namespace Quickly.TransposeDoc

open Quickly.Pitch Quickly.Relative Quickly.Rel2abs Spec

/-! ## One note -/

/-- The note may have another pitch. -/
def Moved (n n' : Note) : Prop :=
  n'.writable = n.writable ∧ n'.lang = n.lang ∧ n'.check.isSome = n.check.isSome ∧ (n.writable = false → n' = n)

theorem process_moved (c : Ctx) (n : Note) (f : Pitch → Pitch) (nd : PNode)
    (h : (c.pp n.lang).process n.node n.writable f = .ok nd) : Moved n { n with node := nd } := by
  refine ⟨rfl, rfl, rfl, fun hw => ?_⟩
  rw [Processor.process, hw] at h
  split at h
  · cases h
  · simp only [Bool.false_eq_true, if_false, Except.ok.injEq] at h
    rw [← h]

theorem transposeAbs_moved (c : Ctx) (o : ℤ) (n n' : Note) (h : transposeAbs c o n = .ok n') : Moved n n' := by
  unfold transposeAbs at h
  split at h
  · rename_i nd e
    cases h
    exact process_moved c n _ nd e
  · cases h

theorem transposeKey_moved (c : Ctx) (n n' : Note) (h : transposeKey c n = .ok n') : Moved n n' := by
  unfold transposeKey at h
  split at h
  · rename_i nd e
    cases h
    exact process_moved c n _ nd e
  · cases h

theorem transposeNote_moved (c : Ctx) (n n' : Note) (l l' : Last) (h : transposeNote c n l = .ok (l', n')) : Moved n n' := by
  unfold transposeNote at h
  split at h
  · cases h
  · simp only at h
    split at h
    · cases h
      exact ⟨rfl, rfl, rfl, fun _ => rfl⟩
    · rename_i hw
      split at h
      · cases h
      · cases h
        refine ⟨rfl, rfl, ?_, fun h => absurd h (by simpa using hw)⟩
        dsimp only
        cases n.check <;> rfl

theorem transposeCheck_moved (c : Ctx) (n n' : Note) (l' : Last) (h : transposeCheck c n = .ok (l', n')) : Moved n n' := by
  unfold transposeCheck at h
  split at h
  · cases h
  · split at h
    · rename_i hw
      split at h
      · cases h
      · cases h
        exact ⟨rfl, rfl, rfl, fun h => by simp [hw] at h⟩
    · cases h
      exact ⟨rfl, rfl, rfl, fun _ => rfl⟩

theorem transposeStart_moved (c : Ctx) (n n' : Note) (l' : Last) (h : transposeStart c n = .ok (l', n')) : Moved n n' := by
  unfold transposeStart at h
  split at h
  · cases h
  · split at h
    · rename_i hw
      split at h
      · cases h
      · cases h
        exact ⟨rfl, rfl, rfl, fun h => by simp [hw] at h⟩
    · cases h
      exact ⟨rfl, rfl, rfl, fun _ => rfl⟩

theorem consume_moved (c : Ctx) (n n' : Note) (s s' : Sink) (h : consume c n s = .ok (s', n')) : Moved n n' := by
  cases s with
  | pitches o =>
    simp only [consume] at h
    split at h
    · cases h
    · rename_i e; cases h; exact transposeAbs_moved c o n _ e
  | key =>
    simp only [consume] at h
    split at h
    · cases h
    · rename_i e; cases h; exact transposeKey_moved c n _ e
  | relative l =>
    simp only [consume] at h
    split at h
    · cases h
    · rename_i e; cases h; exact transposeNote_moved c n _ _ _ e
  | chord t f =>
    simp only [consume] at h
    split at h
    · cases h
    · rename_i e; cases h; exact transposeNote_moved c n _ _ _ e
  | check l =>
    simp only [consume] at h
    split at h
    · cases h
    · rename_i e; cases h; exact transposeCheck_moved c n _ _ e

/-- The node of a note that has moved. -/
theorem moved_same (sel : Id → Bool) (L : Str) (i : Id) (p : Bool) (nd : PNode) (chk : Option ℤ) (n : Note) (ks gs : List Doc)
    (h : Moved { node := nd, check := chk, writable := sel i, lang := L } n) (hk : SameL sel ks gs) :
    Same sel (.node i (.note p nd chk) ks) (setNote i p n gs) := by
  obtain ⟨h1, h2, h3, h4⟩ := h
  rw [setNote, Same]
  refine ⟨rfl, ?_, hk⟩
  cases hs : sel i with
  | false =>
    have := h4 hs
    subst this
    exact .inl rfl
  | true => exact .inr ⟨rfl, p, nd, chk, n.node, n.check, rfl, rfl, h3⟩

mutual
theorem same_refl (sel : Id → Bool) : ∀ t, Same sel t t
  | .node i l ks => by rw [Same]; exact ⟨rfl, .inl rfl, sameL_refl sel ks⟩
theorem sameL_refl (sel : Id → Bool) : ∀ ks, SameL sel ks ks
  | [] => by simp [SameL]
  | k :: ks => by rw [SameL]; exact ⟨same_refl sel k, sameL_refl sel ks⟩
end

/-! ## The walk -/

/-- A node whose children have been visited. -/
theorem node_same (sel : Id → Bool) (i : Id) (l : Lab) (ks gs : List Doc) (h : SameL sel ks gs) : Same sel (.node i l ks) (.node i l gs) := by
  rw [Same]; exact ⟨rfl, .inl rfl, h⟩

theorem first_same (c : Ctx) (sel : Id → Bool) (st : Option Start) (L : Str) (k k' : Doc) (s : Sink)
    (h : first c sel st L k = .ok (some (s, k'))) : Same sel k k' := by
  unfold first at h
  split at h
  · rename_i i p nd chk ks
    split at h
    · split at h
      · rename_i hs
        split at h
        · cases h
        · rename_i n e
          cases h
          have := transposeAbs_moved c 0 _ _ e
          refine moved_same sel L i p nd chk n ks ks ?_ (sameL_refl sel ks)
          rw [hs]
          exact this
      · cases h; exact same_refl sel _
    · split at h
      · cases h
      · rename_i e
        cases h
        exact moved_same sel L _ _ _ _ _ _ _ (transposeStart_moved c _ _ _ e) (sameL_refl sel _)
    · cases h
  · split at h
    · cases h; exact same_refl sel _
    · cases h

mutual
theorem visit_same (c : Ctx) (sel : Id → Bool) : ∀ (t : Doc) (rm : Bool) (s s' : Sink) (L L' : Str) (t' : Doc),
    visit c sel rm s L t = .ok (s', L', t') → Same sel t t'
  | .node i l ks, rm, s, s', L, L', t', h => by
    have key : ∀ (l : Lab) (rm : Bool) (n : ℕ) (s1 s2 : Sink) (L2 : Str) (gs : List Doc), list c sel rm n s1 L ks = .ok (s2, L2, gs) →
        Same sel (.node i l ks) (.node i l gs) := fun l rm n s1 s2 L2 gs e =>
      node_same sel i l ks gs (list_same c sel ks rm n s1 s2 L L2 gs e)
    have key2 : ∀ (l : Lab) (st : Option Start) (rm : Bool) (s1 s2 : Sink) (L2 : Str) (gs : List Doc), skip c sel st rm s1 L ks = .ok (s2, L2, gs) →
        Same sel (.node i l ks) (.node i l gs) := fun l st rm s1 s2 L2 gs e =>
      node_same sel i l ks gs (skip_same c sel ks st rm s1 s2 L L2 gs e)
    cases l with
    | note p nd chk =>
      rw [visit] at h
      split at h
      · cases h
      · rename_i s1 n e1
        split at h
        · cases h
        · rename_i s2 L2 gs e2
          cases h
          exact moved_same sel L i p nd chk n ks gs (consume_moved c _ n s s' e1) (list_same c sel ks _ _ _ _ _ _ gs e2)
    | chord =>
      rw [visit] at h
      split at h
      · split at h
        · cases h
        · rename_i e; cases h; exact key _ _ _ _ _ _ _ e
        · cases h
      · split at h
        · cases h
        · rename_i e; cases h; exact key _ _ _ _ _ _ _ e
    | check =>
      rw [visit] at h
      split at h
      · split at h
        · cases h
        · rename_i e; cases h; exact key _ _ _ _ _ _ _ e
        · cases h
      · split at h
        · cases h
        · rename_i e; cases h; exact key _ _ _ _ _ _ _ e
    | relative =>
      rw [visit] at h
      split at h
      · cases h
      · rename_i e; cases h; exact key2 _ _ _ _ _ _ _ e
    | language l => rw [visit] at h; cases h; exact same_refl sel _
    | skip k =>
      cases k with
      | silent => rw [visit] at h; cases h; exact same_refl sel _
      | fixed =>
        rw [visit] at h
        split at h
        · cases h
        · rename_i e; cases h; exact key2 _ _ _ _ _ _ _ e
      | _ =>
        rw [visit] at h
        split at h
        · cases h
        · rename_i e; cases h; exact key _ _ _ _ _ _ _ e
    | _ =>
      rw [visit] at h
      · split at h
        · cases h
        · rename_i e; cases h; exact key _ _ _ _ _ _ _ e
      all_goals simp
theorem list_same (c : Ctx) (sel : Id → Bool) : ∀ (ks : List Doc) (rm : Bool) (n : ℕ) (s s' : Sink) (L L' : Str) (ks' : List Doc),
    list c sel rm n s L ks = .ok (s', L', ks') → SameL sel ks ks'
  | [], rm, n, s, s', L, L', ks', h => by
    rw [list] at h
    cases h
    simp [SameL]
  | k :: ks, rm, n, s, s', L, L', ks', h => by
    cases n with
    | zero =>
      rw [list] at h
      split at h
      · cases h
      · rename_i e1
        split at h
        · cases h
        · rename_i e2
          cases h
          rw [SameL]
          exact ⟨visit_same c sel k _ _ _ _ _ _ e1, list_same c sel ks _ _ _ _ _ _ _ e2⟩
    | succ n =>
      rw [list] at h
      split at h
      · cases h
      · rename_i e1
        split at h
        · cases h
        · rename_i e2
          cases h
          rw [SameL]
          exact ⟨visit_same c sel k _ _ _ _ _ _ e1, list_same c sel ks _ _ _ _ _ _ _ e2⟩
theorem skip_same (c : Ctx) (sel : Id → Bool) : ∀ (ks : List Doc) (st : Option Start) (rm : Bool) (s s' : Sink) (L L' : Str) (ks' : List Doc),
    skip c sel st rm s L ks = .ok (s', L', ks') → SameL sel ks ks'
  | [], st, rm, s, s', L, L', ks', h => by
    rw [skip] at h
    cases h
    simp [SameL]
  | k :: ks, st, rm, s, s', L, L', ks', h => by
    rw [skip] at h
    split at h
    · split at h
      · cases h
      · rename_i e
        cases h
        rw [SameL]
        exact ⟨same_refl sel k, skip_same c sel ks _ _ _ _ _ _ _ e⟩
    · split at h
      · cases h
      · rename_i e1
        split at h
        · cases h
        · rename_i e2
          cases h
          rw [SameL]
          exact ⟨first_same c sel _ L _ _ _ e1, skip_same c sel ks _ _ _ _ _ _ _ e2⟩
      · split at h
        · cases h
        · rename_i e1
          split at h
          · cases h
          · rename_i e2
            cases h
            rw [SameL]
            exact ⟨visit_same c sel _ _ _ _ _ _ _ e1, skip_same c sel ks _ _ _ _ _ _ _ e2⟩
end

/-! ## What the documents have in common -/

theorem labSame_after (w : Bool) (l m : Lab) (h : LabSame w l m) (lang : Str) : l = .language lang ↔ m = .language lang := by
  rcases h with rfl | ⟨_, p, nd, chk, nd', chk', rfl, rfl, _⟩ <;> simp

mutual
theorem same_after (sel : Id → Bool) : ∀ (t t' : Doc) (L : Str), Same sel t t' → after L t' = after L t
  | .node i l ks, .node j m gs, L, h => by
    rw [Same] at h
    obtain ⟨_, hl, hk⟩ := h
    have := sameL_after sel ks gs L hk
    rcases hl with rfl | ⟨_, p, nd, chk, nd', chk', rfl, rfl, _⟩
    · cases l <;> simp [after, this]
    · simp [after, this]
theorem sameL_after (sel : Id → Bool) : ∀ (ks gs : List Doc) (L : Str), SameL sel ks gs → afterL L gs = afterL L ks
  | [], [], L, _ => rfl
  | k :: ks, g :: gs, L, h => by
    rw [SameL] at h
    rw [afterL, afterL, same_after sel k g L h.1, sameL_after sel ks gs _ h.2]
  | [], _ :: _, _, h => by simp [SameL] at h
  | _ :: _, [], _, h => by simp [SameL] at h
end

end Quickly.TransposeDoc
