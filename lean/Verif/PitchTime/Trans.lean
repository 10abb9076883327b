import Verif.PitchTime.Edits

/-! # One pitch edit after another -/

namespace Quickly.PitchTime.Spec

open Quickly.Rel2abs Quickly.Rel2abs.Spec

/-- The children of a `\relative`, comments apart: one node with music, or a pitch and one node with music, which is not just an `\octaveCheck`. -/
def Shaped (ks : List Doc) : Prop :=
  (∃ b, real ks = [b] ∧ b.lab ≠ .check) ∨ ∃ s b, real ks = [s, b] ∧ s.lab.isPitch = true ∧ b.lab ≠ .check

mutual
/-- Every `\relative` in the node is complete. -/
def Shape : Doc → Prop
  | .node _ l ks => (l = .relative → Shaped ks) ∧ ShapeL ks
/-- The same for a list. -/
def ShapeL : List Doc → Prop
  | [] => True
  | k :: ks => Shape k ∧ ShapeL ks
end

end Quickly.PitchTime.Spec

namespace Quickly.PitchTime

open Spec
open Quickly.Pitch (PNode)
open Quickly.Rel2abs
open Quickly.Rel2abs.Spec

theorem shapeL_append (a b : List Doc) : ShapeL (a ++ b) ↔ ShapeL a ∧ ShapeL b := by
  induction a with
  | nil => simp [ShapeL]
  | cons x a ih => simp only [List.cons_append, ShapeL, ih, and_assoc]

theorem edit_nil {us : List Doc} (h : Edit [] us) : us = [] := by cases h; rfl

theorem edit_uncons {x : Doc} {ts vs : List Doc} (h : Edit (x :: ts) vs) :
    (∃ y vs', vs = y :: vs' ∧ Edit [x] [y] ∧ Edit ts vs') ∨ (x.lab = .check ∧ Edit ts vs) := by
  cases h with
  | node i l ks gs ts us hl h1 h2 => exact .inl ⟨_, _, rfl, .node _ _ _ _ _ _ hl h1 .nil, h2⟩
  | note i b n n' chk chk' ks gs ts us h1 h2 => exact .inl ⟨_, _, rfl, .note _ _ _ _ _ _ _ _ _ _ h1 .nil, h2⟩
  | check i ks ts us h2 => exact .inr ⟨rfl, h2⟩
  | relative i pre b post y ts us hb hp h1 h2 => exact .inl ⟨_, _, rfl, .relative _ _ _ _ _ _ _ hb hp h1 .nil, h2⟩

theorem edit_real_lab {ts us : List Doc} (h : Edit ts us) : ∀ x y, ts = [x] → us = [y] → x.lab ≠ .comment → y.lab ≠ .comment := by
  induction h with
  | nil => intro x y h; cases h
  | node i l ks gs ts us hl _ _ _ _ => intro x y h1 h2 hx; cases h1; cases h2; exact hx
  | note i b n n' chk chk' ks gs ts us _ _ _ _ => intro x y h1 h2 _; cases h2; simp [Doc.lab]
  | check i ks ts us h _ => intro x y h1 h2; cases h1; subst h2; cases h
  | relative i pre b post z ts us hb _ _ _ ih _ => intro x y h1 h2 _; cases h2; exact ih b z rfl rfl hb

theorem edit_comment {x y : Doc} (h : Edit [x] [y]) (hx : x.lab = .comment) : y.lab = .comment := by
  cases h with
  | node i l ks gs ts us hl _ _ => exact hx
  | note => cases hx
  | check => cases hx
  | relative => cases hx

theorem edit_pitch {x y : Doc} (h : Edit [x] [y]) (hx : x.lab.isPitch = true) : y.lab.isPitch = true := by
  cases h with
  | node i l ks gs ts us hl _ _ => exact hx
  | note => exact hx
  | check => cases hx
  | relative => cases hx

theorem real_mid (pre : List Doc) (b : Doc) (post : List Doc) (hb : b.lab ≠ .comment) (hp : ∀ z ∈ post, z.lab = .comment) :
    real (pre ++ b :: post) = real pre ++ [b] := by
  have h1 : real post = [] := by
    rw [real, List.filter_eq_nil_iff]
    intro z hz
    simp [hp z hz]
  have h2 : real (b :: post) = b :: real post := by simp [real, hb]
  have h3 : real (pre ++ b :: post) = real pre ++ real (b :: post) := by simp [real]
  rw [h3, h2, h1]

theorem shaped_body {pre : List Doc} {b : Doc} {post : List Doc} (h : Shaped (pre ++ b :: post)) (hb : b.lab ≠ .comment)
    (hp : ∀ z ∈ post, z.lab = .comment) : b.lab ≠ .check := by
  rw [Shaped, real_mid pre b post hb hp] at h
  rcases h with ⟨c, e, h⟩ | ⟨s, c, e, -, h⟩
  · have := congrArg List.getLast? e
    simp at this
    rwa [this]
  · have := congrArg List.getLast? e
    simp at this
    rwa [this]

theorem shaped_no_check {ks : List Doc} (h : Shaped ks) : ∀ x ∈ ks, x.lab ≠ .check := by
  intro x hx hc
  have hr : x ∈ real ks := by simp [real, hx, hc]
  rcases h with ⟨c, e, h⟩ | ⟨s, c, e, hs, h⟩
  · rw [e] at hr
    simp at hr
    exact h (by rw [← hr]; exact hc)
  · rw [e] at hr
    simp at hr
    rcases hr with rfl | rfl
    · rw [hc] at hs; cases hs
    · exact h hc

theorem edit_no_check {ts us : List Doc} (h : Edit ts us) : ShapeL ts → ∀ x y, ts = [x] → us = [y] → x.lab ≠ .check → y.lab ≠ .check := by
  induction h with
  | nil => intro _ x y h; cases h
  | node i l ks gs ts us hl _ _ _ _ => intro _ x y h1 h2 hx; cases h1; cases h2; exact hx
  | note i b n n' chk chk' ks gs ts us _ _ _ _ => intro _ x y h1 h2 _; cases h2; simp [Doc.lab]
  | check i ks ts us h _ => intro _ x y h1 h2; cases h1; subst h2; cases h
  | relative i pre b post z ts us hb hp _ _ ih _ =>
    intro hs x y h1 h2 _
    cases h2
    rw [ShapeL, Shape, shapeL_append, ShapeL] at hs
    exact ih ⟨hs.1.2.2.1, trivial⟩ b z rfl rfl (shaped_body (hs.1.1 rfl) hb hp)

theorem edit_split {ks : List Doc} : ∀ {pre' : List Doc} {b' : Doc} {post' : List Doc}, (∀ x ∈ ks, x.lab ≠ .check) → Edit ks (pre' ++ b' :: post') →
    ∃ pre b post, ks = pre ++ b :: post ∧ Edit pre pre' ∧ Edit [b] [b'] ∧ Edit post post' := by
  induction ks with
  | nil => intro pre' b' post' _ h; have := edit_nil h; simp at this
  | cons k ks ih =>
    intro pre' b' post' hc h
    rcases edit_uncons h with ⟨y, vs, e, h1, h2⟩ | ⟨h1, -⟩
    · cases pre' with
      | nil =>
        simp only [List.nil_append, List.cons.injEq] at e
        obtain ⟨rfl, rfl⟩ := e
        exact ⟨[], k, ks, rfl, .nil, h1, h2⟩
      | cons z pre' =>
        simp only [List.cons_append, List.cons.injEq] at e
        obtain ⟨rfl, rfl⟩ := e
        obtain ⟨pre, b, post, rfl, a1, a2, a3⟩ := ih (fun x hx => hc x (List.mem_cons_of_mem _ hx)) h2
        exact ⟨k :: pre, b, post, rfl, edit_append h1 a1, a2, a3⟩
    · exact absurd h1 (hc k List.mem_cons_self)

theorem edit_comments {ks : List Doc} : ∀ {gs : List Doc}, (∀ x ∈ ks, x.lab ≠ .check) → Edit ks gs → (∀ z ∈ gs, z.lab = .comment) →
    ∀ z ∈ ks, z.lab = .comment := by
  induction ks with
  | nil => intro gs _ _ _ z hz; simp at hz
  | cons k ks ih =>
    intro gs hc h hg
    rcases edit_uncons h with ⟨y, vs, rfl, h1, h2⟩ | ⟨h1, -⟩
    · intro z hz
      rcases List.mem_cons.1 hz with rfl | hz
      · by_contra hn
        exact edit_real_lab h1 z y rfl rfl hn (hg y List.mem_cons_self)
      · exact ih (fun x hx => hc x (List.mem_cons_of_mem _ hx)) h2 (fun z hz => hg z (List.mem_cons_of_mem _ hz)) z hz
    · exact absurd h1 (hc k List.mem_cons_self)

theorem real_edit {ks : List Doc} : ∀ {gs : List Doc}, (∀ x ∈ ks, x.lab ≠ .check) → Edit ks gs → Edit (real ks) (real gs) := by
  induction ks with
  | nil => intro gs _ h; rw [edit_nil h]; exact .nil
  | cons k ks ih =>
    intro gs hc h
    rcases edit_uncons h with ⟨y, vs, rfl, h1, h2⟩ | ⟨h1, -⟩
    · have h3 := ih (fun x hx => hc x (List.mem_cons_of_mem _ hx)) h2
      by_cases hk : k.lab = .comment
      · have hy := edit_comment h1 hk
        have e1 : real (k :: ks) = real ks := by simp [real, hk]
        have e2 : real (y :: vs) = real vs := by simp [real, hy]
        rw [e1, e2]; exact h3
      · have hy := edit_real_lab h1 k y rfl rfl hk
        have e1 : real (k :: ks) = k :: real ks := by simp [real, hk]
        have e2 : real (y :: vs) = y :: real vs := by simp [real, hy]
        rw [e1, e2]; exact edit_append h1 h3
    · exact absurd h1 (hc k List.mem_cons_self)

theorem shape_mem {ks : List Doc} (h : ShapeL ks) {x : Doc} (hx : x ∈ ks) : Shape x := by
  induction ks with
  | nil => simp at hx
  | cons k ks ih =>
    rw [ShapeL] at h
    rcases List.mem_cons.1 hx with rfl | hx
    · exact h.1
    · exact ih h.2 hx

theorem real_mem {ks : List Doc} {x : Doc} (h : x ∈ real ks) : x ∈ ks := List.mem_of_mem_filter h

theorem shaped_edit {ks gs : List Doc} (h : Edit ks gs) (hl : ShapeL ks) (hs : Shaped ks) : Shaped gs := by
  have hr := real_edit (shaped_no_check hs) h
  have hm : ∀ x ∈ real ks, Shape x := fun x hx => shape_mem hl (real_mem hx)
  rcases hs with ⟨c, e, h⟩ | ⟨s, c, e, hs, h⟩
  · rw [e] at hr hm
    rcases edit_uncons hr with ⟨y, vs, e2, h1, h2⟩ | ⟨h1, -⟩
    · rw [edit_nil h2] at e2
      exact .inl ⟨y, e2, edit_no_check h1 ⟨hm c (by simp), trivial⟩ c y rfl rfl h⟩
    · exact absurd h1 h
  · rw [e] at hr hm
    rcases edit_uncons hr with ⟨z, ws, e3, h3, h4⟩ | ⟨h1, -⟩
    · rcases edit_uncons h4 with ⟨y, vs, rfl, h1, h2⟩ | ⟨h1, -⟩
      · rw [edit_nil h2] at e3
        exact .inr ⟨z, y, e3, edit_pitch h3 hs, edit_no_check h1 ⟨hm c (by simp), trivial⟩ c y rfl rfl h⟩
      · exact absurd h1 h
    · rw [h1] at hs; cases hs

theorem shape_edit {ts us : List Doc} (h : Edit ts us) : ShapeL ts → ShapeL us := by
  induction h with
  | nil => exact id
  | node i l ks gs ts us hl h1 _ ih1 ih2 =>
    intro hs
    rw [ShapeL, Shape] at hs ⊢
    exact ⟨⟨fun hr => shaped_edit h1 hs.1.2 (hs.1.1 hr), ih1 hs.1.2⟩, ih2 hs.2⟩
  | note i b n n' chk chk' ks gs ts us h1 _ ih1 ih2 =>
    intro hs
    rw [ShapeL, Shape] at hs ⊢
    exact ⟨⟨by simp, ih1 hs.1.2⟩, ih2 hs.2⟩
  | check i ks ts us _ ih => intro hs; rw [ShapeL] at hs; exact ih hs.2
  | relative i pre b post y ts us hb hp h1 _ ih1 ih2 =>
    intro hs
    rw [ShapeL, Shape, shapeL_append, ShapeL] at hs
    have := ih1 ⟨hs.1.2.2.1, trivial⟩
    rw [ShapeL] at this ⊢
    exact ⟨this.1, ih2 hs.2⟩

theorem edit_trans {ts us : List Doc} (h : Edit ts us) : ∀ {vs : List Doc}, ShapeL ts → Edit us vs → Edit ts vs := by
  induction h with
  | nil => intro vs _ h; rw [edit_nil h]; exact .nil
  | node i l ks gs ts us hl h1 h2 ih1 ih2 =>
    intro vs hs h
    rw [ShapeL, Shape] at hs
    cases h with
    | node i l gs g2 us u2 _ h3 h4 => exact .node _ _ _ _ _ _ hl (ih1 hs.1.2 h3) (ih2 hs.2 h4)
    | note i b n => exact absurd rfl (hl _ _ _)
    | check i gs us u2 h4 => exact .check _ _ _ _ (ih2 hs.2 h4)
    | relative i pre' b' post' y us u2 hb hp h3 h4 =>
      have hsh := hs.1.1 rfl
      have hc := shaped_no_check hsh
      obtain ⟨pre, b, post, rfl, a1, a2, a3⟩ := edit_split hc h1
      have hb2 : b.lab ≠ .comment := fun e => hb (edit_comment a2 e)
      have hp2 := edit_comments (fun x hx => hc x (by simp [hx])) a3 hp
      rw [shapeL_append, ShapeL] at hs
      have h5 : Edit (pre ++ b :: post) (pre' ++ y :: post') := ih1 (by rw [shapeL_append, ShapeL]; exact hs.1.2)
        (edit_append (edit_refl pre') (edit_append h3 (edit_refl post')))
      have hbc := shaped_body hsh hb2 hp2
      have key : Edit [b] [y] := by
        -- the lists have the same length, so the parts before the music correspond
        obtain ⟨pre2, b2, post2, e, c1, c2, c3⟩ := edit_split hc h5
        have len : ∀ {a c : List Doc}, (∀ x ∈ a, x.lab ≠ .check) → Edit a c → a.length = c.length := by
          intro a
          induction a with
          | nil => intro c _ h; rw [edit_nil h]
          | cons x a ih =>
            intro c hx h
            rcases edit_uncons h with ⟨y, vs, rfl, _, h2⟩ | ⟨h1, -⟩
            · rw [List.length_cons, List.length_cons, ih (fun z hz => hx z (by simp [hz])) h2]
            · exact absurd h1 (hx x (by simp))
        have l1 := len (fun x hx => hc x (by simp [hx])) a1
        have l2 := len (fun x hx => hc x (by rw [e]; simp [hx])) c1
        obtain ⟨e1, e2⟩ := List.append_inj e (by omega)
        cases e2
        exact c2
      exact .relative _ _ _ _ _ _ _ hb2 hp2 key (ih2 hs.2 h4)
  | note i b n n' chk chk' ks gs ts us h1 h2 ih1 ih2 =>
    intro vs hs h
    rw [ShapeL, Shape] at hs
    cases h with
    | node i l gs g2 us u2 hl h3 h4 => exact absurd rfl (hl _ _ _)
    | note i b n n2 chk chk2 gs g2 us u2 h3 h4 => exact .note _ _ _ _ _ _ _ _ _ _ (ih1 hs.1.2 h3) (ih2 hs.2 h4)
  | check i ks ts us _ ih => intro vs hs h; rw [ShapeL] at hs; exact .check _ _ _ _ (ih hs.2 h)
  | relative i pre b post y ts us hb hp h1 h2 ih1 ih2 =>
    intro vs hs h
    rw [ShapeL, Shape, shapeL_append, ShapeL] at hs
    have hbc := shaped_body (hs.1.1 rfl) hb hp
    have hs1 : ShapeL [b] := ⟨hs.1.2.2.1, trivial⟩
    rcases edit_uncons h with ⟨z, ws, rfl, h3, h4⟩ | ⟨h3, -⟩
    · exact .relative _ _ _ _ _ _ _ hb hp (ih1 hs1 h3) (ih2 hs.2 h4)
    · exact absurd h3 (edit_no_check h1 hs1 b y rfl rfl hbc)

end Quickly.PitchTime
