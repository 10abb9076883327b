import Verif.TransposeAbs.Spec
import Verif.TransposeTwice.Lemmas
import Verif.Rel2abs.Music

/-! # Transposing and converting one note; what transposing leaves as it is -/

namespace Quickly.TransposeAbs

open Quickly.Pitch Quickly.Relative Quickly.TransposeDoc
open Quickly.TransposeDoc.Spec (Same SameL LabSame)
open Quickly.Rel2abs (Doc Lab Id Cfg walk walkL out outL startOf bodyOf mkNote)
open Quickly.Rel2abs.Spec (NoRel NoRelL Nice NiceL RelOk OneLang OneLangL Tidy TidyL LastChecks LastChecksL ids idsL real firsts)
open Quickly.Pitch.Spec (IsDict Means)
open Quickly.Relative.Spec (OneOctave)
open Quickly.TransposeBack (readNode_head)
open Quickly.TransposeTwice (name_shift)

/-! ## Notes -/

theorem write_keep (pp : Processor) (nd : PNode) (p q : Pitch) (hr : pp.readNode nd = .ok p) (hn : p.note = q.note) (ha : p.alter = q.alter) :
    pp.writeNode nd q = .ok ⟨nd.head, q.octave - (p.octave - nd.octave)⟩ := by
  unfold Processor.writeNode
  rw [readNode_head _ _ _ hr]
  simp only
  rw [if_pos ⟨hn, ha⟩]

/-- A pitch gets the same name, whether the octave of the node is changed before or after it is written. -/
theorem write_after (pp : Processor) (hd : IsDict pp.table) (h1 : OneOctave pp.table) (nd nd1 nd2 : PNode) (p a r q : Pitch)
    (hr : pp.readNode nd = .ok p) (an : p.note = a.note) (aa : p.alter = a.alter) (hw1 : pp.writeNode nd a = .ok nd1) (hw2 : pp.writeNode nd r = .ok nd2)
    (qn : r.note = q.note) (qa : r.alter = q.alter) : ∃ nd3, pp.writeNode nd2 q = .ok nd3 ∧ pp.writeNode nd1 q = .ok nd3 := by
  refine ⟨_, write_keep pp nd2 r q (C16_write_read pp hd _ _ _ hw2) qn qa, ?_⟩
  rw [write_keep pp nd p a hr an aa] at hw1
  cases hw1
  have g0 := readNode_head _ _ _ hr
  have hr1 : pp.readNode ⟨nd.head, a.octave - (p.octave - nd.octave)⟩ = .ok a := C16_write_read pp hd nd _ _ (write_keep pp nd p a hr an aa)
  by_cases h : p.note = q.note ∧ p.alter = q.alter
  · rw [write_keep pp nd p r hr (h.1.trans qn.symm) (h.2.trans qa.symm)] at hw2
    cases hw2
    rw [write_keep pp _ a q hr1 (an.symm.trans h.1) (aa.symm.trans h.2)]
    congr 2
    ring
  · have hr2 : ¬ (p.note = r.note ∧ p.alter = r.alter) := fun e => h ⟨e.1.trans qn, e.2.trans qa⟩
    unfold Processor.writeNode at hw2 ⊢
    simp only
    rw [g0] at hw2 ⊢
    simp only at hw2 ⊢
    rw [if_neg hr2] at hw2
    rw [if_neg h]
    split at hw2
    · rename_i s o e
      cases hw2
      rw [name_shift pp h1 r q qn.symm qa.symm _ _ e]
      congr 2
      ring
    · cases hw2

/-- The last pitch of the one conversion, of the transposing, and of the other conversion. -/
def Conv (l : Pitch) (last : Last) (l2 : Pitch) : Prop := ∃ k, last.pitch = down k l ∧ last.prev = down k l2

theorem note_conv {c : Ctx} (g : Good c) (n n2 : Note) (last last' : Last) (l l2 : Pitch) (hw : n.writable = true) (hc : n.check = none) (hl : Conv l last l2)
    (h : transposeNote c n last = .ok (last', n2)) : ∃ q q2 n1 n3, absNote c.pp n l = .ok (q, n1) ∧ absNote c.pp n2 l2 = .ok (q2, n3) ∧
      transposeAbs c 0 n1 = .ok n3 ∧ Conv q last' q2 := by
  obtain ⟨k, k1, k2⟩ := hl
  unfold transposeNote at h
  split at h
  · cases h
  · rename_i p hp
    simp only [hw, Bool.not_true, Bool.false_eq_true, if_false, hc] at h
    split at h
    · cases h
    · rename_i nd2 e
      cases h
      obtain ⟨d, hdd⟩ := g.one n.lang
      have o1 : p.octave - n.node.octave = d := hdd _ ((readNode_iff _ (g.dict _) _ _).1 hp)
      have hr2 := C16_write_read _ (g.dict _) _ _ _ e
      have o2 := hdd _ ((readNode_iff _ (g.dict _) _ _).1 hr2)
      simp only at o2
      rw [o1] at e hr2 o2
      have ea : p.makeAbsolute last.pitch d 7 = down k (p.makeAbsolute l d 7) := by
        rw [k1]
        simp only [Pitch.makeAbsolute, down, Pitch.mk.injEq, and_true]
        ring
      have er : (c.tr (down k (p.makeAbsolute l d 7))).makeRelative last.prev d 7 = (c.tr (p.makeAbsolute l d 7)).makeRelative l2 d 7 := by
        rw [k2, g.shift]
        simp only [Pitch.makeRelative, down, Pitch.mk.injEq, and_true]
        ring
      have eb : ((c.tr (p.makeAbsolute l d 7)).makeRelative l2 d 7).makeAbsolute l2 d 7 = c.tr (p.makeAbsolute l d 7) := by
        generalize c.tr (p.makeAbsolute l d 7) = x
        obtain ⟨a, b, e⟩ := x
        simp only [Pitch.makeAbsolute, Pitch.makeRelative, Pitch.mk.injEq, and_true]
        ring
      rw [ea, er] at e hr2 o2
      have hw1 := write_keep (c.pp n.lang) n.node p (p.makeAbsolute l d 7) hp rfl rfl
      rw [o1] at hw1
      obtain ⟨nd3, w1, w2⟩ := write_after (c.pp n.lang) (g.dict _) (g.one _) n.node _ nd2 p (p.makeAbsolute l d 7)
        ((c.tr (p.makeAbsolute l d 7)).makeRelative l2 d 7) (c.tr (p.makeAbsolute l d 7)) hp rfl rfl hw1 e rfl rfl
      refine ⟨p.makeAbsolute l d 7, c.tr (p.makeAbsolute l d 7), { n with node := ⟨n.node.head, (p.makeAbsolute l d 7).octave - d⟩ },
        { n with node := nd3, check := none }, ?_, ?_, ?_, k, ?_, ?_⟩
      · unfold absNote
        rw [hp]
        simp only [o1]
        rw [hw1]
      · unfold absNote
        simp only
        rw [hr2]
        simp only [o2, eb, w1, hw]
      · unfold transposeAbs Processor.process
        simp only [C16_write_read _ (g.dict _) _ _ _ hw1, hw, if_true, down_zero, w2, hc]
      · simp only [o1, ea]
      · simp only [Last.prev, o1, ea, g.shift]

/-! ## What stays -/

/-- Every note is selected. -/
abbrev whole : Id → Bool := fun _ => true

theorem labSame_cases {w : Bool} {l m : Lab} (h : LabSame w l m) (x : Lab) (hx : ∀ p nd chk, x ≠ .note p nd chk) : l = x ↔ m = x := by
  rcases h with rfl | ⟨_, p, nd, chk, nd', chk', rfl, rfl, _⟩
  · rfl
  · exact ⟨fun e => absurd e.symm (hx _ _ _), fun e => absurd e.symm (hx _ _ _)⟩

mutual
theorem same_ids (sel : Id → Bool) : ∀ t t' : Doc, Same sel t t' → ids t' = ids t
  | .node i l ks, .node j m gs, h => by
    rw [Same] at h
    rw [ids, ids, sameL_ids sel ks gs h.2.2, h.1]
theorem sameL_ids (sel : Id → Bool) : ∀ ks gs : List Doc, SameL sel ks gs → idsL gs = idsL ks
  | [], [], _ => rfl
  | [], _ :: _, h => by simp [SameL] at h
  | _ :: _, [], h => by simp [SameL] at h
  | k :: ks, g :: gs, h => by
    rw [SameL] at h
    rw [idsL, idsL, same_ids sel k g h.1, sameL_ids sel ks gs h.2]
end

mutual
theorem same_noRel (sel : Id → Bool) : ∀ t t' : Doc, Same sel t t' → NoRel t → NoRel t'
  | .node i l ks, .node j m gs, h, hn => by
    rw [Same] at h
    rw [NoRel] at hn ⊢
    exact ⟨fun e => hn.1 ((labSame_cases h.2.1 .relative (by simp)).2 e), sameL_noRel sel ks gs h.2.2 hn.2⟩
theorem sameL_noRel (sel : Id → Bool) : ∀ ks gs : List Doc, SameL sel ks gs → NoRelL ks → NoRelL gs
  | [], [], _, _ => by simp [NoRelL]
  | [], _ :: _, h, _ => by simp [SameL] at h
  | _ :: _, [], h, _ => by simp [SameL] at h
  | k :: ks, g :: gs, h, hn => by
    rw [SameL] at h
    rw [NoRelL] at hn ⊢
    exact ⟨same_noRel sel k g h.1 hn.1, sameL_noRel sel ks gs h.2 hn.2⟩
end

mutual
theorem same_oneLang (sel : Id → Bool) (L : Str) : ∀ t t' : Doc, Same sel t t' → OneLang L t → OneLang L t'
  | .node i l ks, .node j m gs, h, hn => by
    rw [Same] at h
    rw [OneLang] at hn ⊢
    exact ⟨fun l' e => hn.1 l' ((labSame_cases h.2.1 (.language l') (by simp)).2 e), sameL_oneLang sel L ks gs h.2.2 hn.2⟩
theorem sameL_oneLang (sel : Id → Bool) (L : Str) : ∀ ks gs : List Doc, SameL sel ks gs → OneLangL L ks → OneLangL L gs
  | [], [], _, _ => by simp [OneLangL]
  | [], _ :: _, h, _ => by simp [SameL] at h
  | _ :: _, [], h, _ => by simp [SameL] at h
  | k :: ks, g :: gs, h, hn => by
    rw [SameL] at h
    rw [OneLangL] at hn ⊢
    exact ⟨same_oneLang sel L k g h.1 hn.1, sameL_oneLang sel L ks gs h.2 hn.2⟩
end

theorem same_lab {sel : Id → Bool} {k g : Doc} (h : Same sel k g) (x : Lab) (hx : ∀ p nd chk, x ≠ .note p nd chk) : k.lab = x ↔ g.lab = x := by
  obtain ⟨i, l, ks⟩ := k
  obtain ⟨j, m, gs⟩ := g
  rw [Same] at h
  exact labSame_cases h.2.1 x hx

theorem sameL_dropLast {sel : Id → Bool} : ∀ ks gs : List Doc, SameL sel ks gs → SameL sel ks.dropLast gs.dropLast
  | [], [], _ => by simp [SameL]
  | [], _ :: _, h => by simp [SameL] at h
  | _ :: _, [], h => by simp [SameL] at h
  | [_], [_], _ => by simp [SameL]
  | [_], _ :: _ :: _, h => by simp [SameL] at h
  | _ :: _ :: _, [_], h => by simp [SameL] at h
  | k :: k' :: ks, g :: g' :: gs, h => by
    rw [SameL] at h
    rw [List.dropLast_cons_cons, List.dropLast_cons_cons, SameL]
    exact ⟨h.1, sameL_dropLast (k' :: ks) (g' :: gs) h.2⟩

theorem sameL_labs {sel : Id → Bool} (x : Lab) (hx : ∀ p nd chk, x ≠ .note p nd chk) : ∀ ks gs : List Doc, SameL sel ks gs →
    (∀ k ∈ ks, k.lab ≠ x) → ∀ g ∈ gs, g.lab ≠ x
  | [], [], _, _ => by simp
  | [], _ :: _, h, _ => by simp [SameL] at h
  | _ :: _, [], h, _ => by simp [SameL] at h
  | k :: ks, g :: gs, h, hn => by
    rw [SameL] at h
    intro y hy
    rcases List.mem_cons.1 hy with rfl | hy
    · exact fun e => hn k (by simp) ((same_lab h.1 x hx).2 e)
    · exact sameL_labs x hx ks gs h.2 (fun k hk => hn k (by simp [hk])) y hy

mutual
theorem same_checks (sel : Id → Bool) : ∀ t t' : Doc, Same sel t t' → LastChecks t → LastChecks t'
  | .node i l ks, .node j m gs, h, hn => by
    rw [Same] at h
    rw [LastChecks] at hn ⊢
    exact ⟨sameL_labs .check (by simp) _ _ (sameL_dropLast ks gs h.2.2) hn.1, sameL_checks sel ks gs h.2.2 hn.2⟩
theorem sameL_checks (sel : Id → Bool) : ∀ ks gs : List Doc, SameL sel ks gs → LastChecksL ks → LastChecksL gs
  | [], [], _, _ => by simp [LastChecksL]
  | [], _ :: _, h, _ => by simp [SameL] at h
  | _ :: _, [], h, _ => by simp [SameL] at h
  | k :: ks, g :: gs, h, hn => by
    rw [SameL] at h
    rw [LastChecksL] at hn ⊢
    exact ⟨same_checks sel k g h.1 hn.1, sameL_checks sel ks gs h.2 hn.2⟩
end

theorem sameL_real {sel : Id → Bool} : ∀ ks gs : List Doc, SameL sel ks gs → SameL sel (real ks) (real gs)
  | [], [], _ => by simp [real, SameL]
  | [], _ :: _, h => by simp [SameL] at h
  | _ :: _, [], h => by simp [SameL] at h
  | k :: ks, g :: gs, h => by
    rw [SameL] at h
    have ih := sameL_real ks gs h.2
    unfold real at ih ⊢
    by_cases hk : k.lab = .comment
    · rw [List.filter_cons_of_neg (by simpa using hk), List.filter_cons_of_neg (by simpa using (same_lab h.1 _ (by simp)).1 hk)]
      exact ih
    · rw [List.filter_cons_of_pos (by simpa using hk), List.filter_cons_of_pos (by simpa using fun e => hk ((same_lab h.1 _ (by simp)).2 e)), SameL]
      exact ⟨h.1, ih⟩

theorem sameL_take {sel : Id → Bool} : ∀ (n : ℕ) (ks gs : List Doc), SameL sel ks gs → SameL sel (ks.take n) (gs.take n)
  | 0, _, _, _ => by simp [SameL]
  | _ + 1, [], [], _ => by simp [SameL]
  | _ + 1, [], _ :: _, h => by simp [SameL] at h
  | _ + 1, _ :: _, [], h => by simp [SameL] at h
  | n + 1, k :: ks, g :: gs, h => by
    rw [SameL] at h
    rw [List.take_succ_cons, List.take_succ_cons, SameL]
    exact ⟨h.1, sameL_take n ks gs h.2⟩

theorem same_isPitch {sel : Id → Bool} {k g : Doc} (h : Same sel k g) : g.lab.isPitch = k.lab.isPitch := by
  obtain ⟨i, l, ks⟩ := k
  obtain ⟨j, m, gs⟩ := g
  rw [Same] at h
  rcases h.2.1 with rfl | ⟨_, p, nd, chk, nd', chk', rfl, rfl, _⟩ <;> rfl

theorem same_relOk {sel : Id → Bool} {ks gs : List Doc} (h : SameL sel ks gs) (hr : RelOk ks) : RelOk gs := by
  have hs := sameL_real ks gs h
  refine ⟨sameL_noRel sel _ _ h hr.plain, sameL_checks sel _ _ h hr.checks, ?_⟩
  rcases hr.shape with ⟨b, e, hb⟩ | ⟨s, b, e, hp, hb⟩
  · left
    rw [e] at hs
    match hg : real gs, hs with
    | [g], hs =>
      rw [SameL] at hs
      exact ⟨g, rfl, fun e => hb ((same_lab hs.1 _ (by simp)).2 e)⟩
    | [], hs => simp [SameL] at hs
    | _ :: _ :: _, hs => simp [SameL] at hs
  · right
    rw [e] at hs
    match hg : real gs, hs with
    | [g, g'], hs =>
      rw [SameL, SameL] at hs
      exact ⟨g, g', rfl, by rw [same_isPitch hs.1, hp], fun e => hb ((same_lab hs.2.1 _ (by simp)).2 e)⟩
    | [], hs => simp [SameL] at hs
    | [_], hs => simp [SameL] at hs
    | _ :: _ :: _ :: _, hs => simp [SameL] at hs

mutual
theorem same_nice (sel : Id → Bool) : ∀ t t' : Doc, Same sel t t' → Nice t → Nice t'
  | .node i l ks, .node j m gs, h, hn => by
    rw [Same] at h
    obtain ⟨-, hl, hk⟩ := h
    have key : ((Rel2abs.Spec.Lab.closed l = true → NoRelL ks) ∧ NoRelL (firsts (Rel2abs.Spec.Lab.args l) ks) ∧ NiceL ks) →
        (Rel2abs.Spec.Lab.closed l = true → NoRelL gs) ∧ NoRelL (firsts (Rel2abs.Spec.Lab.args l) gs) ∧ NiceL gs := fun ⟨a, b, d⟩ =>
      ⟨fun e => sameL_noRel sel _ _ hk (a e), sameL_noRel sel _ _ (sameL_take _ _ _ (sameL_real _ _ hk)) b, sameL_nice sel ks gs hk d⟩
    rcases hl with rfl | ⟨_, p, nd, chk, nd', chk', rfl, rfl, _⟩
    · by_cases hr : l = .relative
      · subst hr
        rw [Nice] at hn ⊢
        exact same_relOk hk hn
      · cases l <;> first | exact absurd rfl hr | (rw [Nice] at hn ⊢ <;> first | exact key hn | simp)
    · rw [Nice] at hn ⊢ <;> first | exact key hn | simp
theorem sameL_nice (sel : Id → Bool) : ∀ ks gs : List Doc, SameL sel ks gs → NiceL ks → NiceL gs
  | [], [], _, _ => by simp [NiceL]
  | [], _ :: _, h, _ => by simp [SameL] at h
  | _ :: _, [], h, _ => by simp [SameL] at h
  | k :: ks, g :: gs, h, hn => by
    rw [SameL] at h
    rw [NiceL] at hn ⊢
    exact ⟨same_nice sel k g h.1 hn.1, sameL_nice sel ks gs h.2 hn.2⟩
end

end Quickly.TransposeAbs
