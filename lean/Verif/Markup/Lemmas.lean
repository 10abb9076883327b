import Verif.Markup.Spec
import Verif.Scheme.Lemmas3
import Verif.Text.Props

/-! # The text of markup elements -/

namespace Quickly.Markup

open Quickly.Text Quickly.Text.Spec Quickly.Scheme.Spec Quickly.Markup.Spec

/-- Nothing or a space. -/
def Sp (w : Str) : Prop := w = [] ∨ w = [' ']

theorem collapse_sp {x y : Str} (hx : Sp x) (hy : Sp y) : Sp (collapse [x, y]) := by
  rcases hx with rfl | rfl <;> rcases hy with rfl | rfl <;> unfold Sp <;> decide

theorem collapse_left {y : Str} (hy : Sp y) : collapse [[' '], y] = [' '] := by
  rcases hy with rfl | rfl <;> decide

theorem collapse_right {x : Str} (hx : Sp x) : collapse [x, [' ']] = [' '] := by
  rcases hx with rfl | rfl <;> decide

theorem collapse_nil (x : Str) : collapse [x] = x := rfl

/-- A fragment with text, and at most a space around it. -/
def Good (f : Frag) : Prop := f.text ≠ [] ∧ Sp f.before ∧ Sp f.after

/-- There is a space between each two. -/
def Sep : List Frag → Prop
  | f :: g :: fs => (f.after = [' '] ∨ g.before = [' ']) ∧ Sep (g :: fs)
  | _ => True

/-- Each with a space before it. -/
def spaced : List Str → Str
  | [] => []
  | s :: ss => ' ' :: (s ++ spaced ss)

theorem layout_good (fs : List Frag) (h : ∀ f ∈ fs, Good f) : (layout fs).1 = (fs.head?.map Frag.before).toList ∧
    ((layout fs).2 = [] ↔ fs = []) ∧ lastWishes (layout fs).2 = (fs.getLast?.map Frag.after).toList := by
  induction fs with
  | nil => simp [layout, lastWishes]
  | cons f fs ih =>
    obtain ⟨i1, i2, i3⟩ := ih fun g hg => h g (by simp [hg])
    have hf := (h f (by simp)).1
    simp only [layout, if_neg hf]
    refine ⟨rfl, by simp, ?_⟩
    cases fs with
    | nil => simp [layout, lastWishes]
    | cons g fs =>
      cases hl : (layout (g :: fs)).2 with
      | nil => exact absurd (i2.1 hl) (by simp)
      | cons u us =>
        rw [hl] at i3
        simpa [lastWishes] using i3

theorem join_good (f : Frag) (fs : List Frag) (h : ∀ g ∈ f :: fs, Good g) (hs : Sep (f :: fs)) :
    Text.Spec.join (layout (f :: fs)).2 = f.text ++ spaced (fs.map Frag.text) := by
  induction fs generalizing f with
  | nil => simp [layout, (h f (by simp)).1, Text.Spec.join, spaced]
  | cons g fs ih =>
    have hf := h f (by simp)
    have hg := h g (by simp)
    have ih := ih g (fun x hx => h x (by simp_all)) hs.2
    obtain ⟨l1, l2, -⟩ := layout_good (g :: fs) fun x hx => h x (by simp_all)
    rw [layout]
    simp only [if_neg hf.1]
    cases hl : (layout (g :: fs)).2 with
    | nil => exact absurd (l2.1 hl) (by simp)
    | cons u us =>
      obtain ⟨a, b⟩ := u
      rw [hl] at ih
      simp only [Text.Spec.join, l1, List.head?_cons, Option.map_some, Option.toList_some, ih, List.map_cons, spaced]
      have : collapse [f.after, g.before] = [' '] := by
        rcases hs.1 with h | h <;> rw [h]
        · exact collapse_left hg.2.1
        · exact collapse_right hf.2.2
      rw [this]
      simp

theorem combine_good (f : Frag) (fs : List Frag) (h : ∀ g ∈ f :: fs, Good g) (hs : Sep (f :: fs)) :
    combine (f :: fs) = ⟨f.before, f.text ++ spaced (fs.map Frag.text), (((f :: fs).getLast?.map Frag.after).getD [])⟩ := by
  obtain ⟨l1, l2, l3⟩ := layout_good (f :: fs) h
  have hne : (layout (f :: fs)).2 ≠ [] := fun e => absurd (l2.1 e) (by simp)
  rw [combine_eq, if_neg hne, if_neg hne, join_good f fs h hs, l1, l3]
  congr 1

/-! ## Elements -/

theorem elem_sp (e : El) : Sp e.elem.sp.before ∧ Sp e.elem.sp.afterHead ∧ Sp e.elem.sp.beforeTail ∧ Sp e.elem.sp.after ∧
    Sp e.elem.sp.between ∧ e.elem.kind ≠ .plain := by
  cases e with
  | scm e =>
    obtain ⟨h1, h2, h3, h4, h5⟩ := Scheme.elem_sp e
    refine ⟨.inl h1, .inl h2, .inl h3, .inl h4, h5, ?_⟩
    cases e <;> simp [El.elem, Scheme.El.elem]
  | _ => simp [El.elem, Sp]

theorem sp_plain {w : Str} (h : Sp w) : Text.Spec.Plain w := by
  rcases h with rfl | rfl <;> simp [Text.Spec.Plain]

theorem mem_toText (c : Node.Tree Text.Elem) (cs : List (Node.Tree El)) (h : c ∈ toText.go cs) : ∃ c', c = toText c' := by
  induction cs with
  | nil => simp [toText.go] at h
  | cons d cs ih =>
    simp only [toText.go, List.mem_cons] at h
    rcases h with h | h
    · exact ⟨d, h⟩
    · exact ih h

theorem plain_toText (t : Node.Tree El) : allPlain defaultConcat (toText t) := by
  intro w h
  have key : ∀ u w, Wish defaultConcat u w → ∀ t, u = toText t → Text.Spec.Plain w := by
    intro u w h
    induction h with
    | before =>
      rintro ⟨e', cs'⟩ hu
      simp only [toText, Node.Tree.node.injEq] at hu
      rw [hu.1]; exact sp_plain (elem_sp e').1
    | afterHead =>
      rintro ⟨e', cs'⟩ hu
      simp only [toText, Node.Tree.node.injEq] at hu
      rw [hu.1]; exact sp_plain (elem_sp e').2.1
    | beforeTail =>
      rintro ⟨e', cs'⟩ hu
      simp only [toText, Node.Tree.node.injEq] at hu
      rw [hu.1]; exact sp_plain (elem_sp e').2.2.1
    | after =>
      rintro ⟨e', cs'⟩ hu
      simp only [toText, Node.Tree.node.injEq] at hu
      rw [hu.1]; exact sp_plain (elem_sp e').2.2.2.1
    | between =>
      rintro ⟨e', cs'⟩ hu
      simp only [toText, Node.Tree.node.injEq] at hu
      unfold defaultConcat
      rw [hu.1]; exact sp_plain (elem_sp e').2.2.2.2.1
    | child hc _ ih =>
      rename_i e cs c w _
      rintro ⟨e', cs'⟩ hu
      simp only [toText, Node.Tree.node.injEq] at hu
      obtain ⟨c', hc'⟩ := mem_toText c cs' (hu.2 ▸ hc)
      exact ih c' hc'
  exact key _ w h t rfl

theorem hasPoint_toText (t : Node.Tree El) : hasPoint (toText t) = true := by
  obtain ⟨e, cs⟩ := t
  have := (elem_sp e).2.2.2.2.2
  unfold toText hasPoint
  cases hk : e.elem.kind <;> simp_all

theorem toText_lift (t : Node.Tree Scheme.El) : toText (lift t) = Scheme.toText t := by
  match t with
  | .node e cs =>
    simp only [lift, toText, Scheme.toText, El.elem, Node.Tree.node.injEq, true_and]
    have ih : ∀ c ∈ cs, toText (lift c) = Scheme.toText c := fun c hc => toText_lift c
    clear t
    induction cs with
    | nil => rfl
    | cons c cs ihc =>
      simp only [lift.go, toText.go, Scheme.toText.go]
      rw [ih c (by simp), ihc fun d hd => ih d (by simp [hd])]
termination_by sizeOf t
decreasing_by
  simp_wf
  have := List.sizeOf_lt_of_mem hc
  omega

/-- What an element gives: this text, with at most a space around it. -/
def Gives (t : Node.Tree El) (s : Str) : Prop :=
  ∃ b a, out defaultConcat (toText t) = ⟨b, s, a⟩ ∧ Sp b ∧ Sp a ∧ s ≠ []

theorem write_gives {t : Node.Tree El} {s : Str} (h : Gives t s) : write t = s := by
  obtain ⟨b, a, h, -⟩ := h
  unfold write
  rw [write_eq, h]

theorem toText_length (cs : List (Node.Tree El)) : (toText.go cs).length = cs.length := by
  induction cs with
  | nil => rfl
  | cons c cs ih => simp [toText.go, ih]

/-- The fragments of the children have their texts, with a space after each but the last. -/
theorem childFrags_gives (e : El) (hb : e.elem.sp.between = [' ']) (cs : List (Node.Tree El)) (ss : List Str)
    (h : List.Forall₂ Gives cs ss) :
    ∃ fs, childFrags defaultConcat (out defaultConcat) e.elem (toText.go cs) = fs ∧ fs.map Frag.text = ss ∧
      (∀ f ∈ fs, Good f) ∧ ∀ f g as bs, fs = as ++ f :: g :: bs → f.after = [' '] := by
  induction h with
  | nil => exact ⟨[], rfl, rfl, by simp, by simp⟩
  | @cons c s cs ss hc hcs ih =>
    obtain ⟨fs, i1, i2, i3, i4⟩ := ih
    obtain ⟨b, a, ho, h1, h2, h3⟩ := hc
    have hsp := elem_sp e
    cases cs with
    | nil =>
      cases hcs
      simp only [toText.go, childFrags, hasPoint_toText, if_true, List.append_nil, ho]
      refine ⟨_, rfl, ?_, ?_, ?_⟩
      · split_ifs <;> rfl
      · intro f hf
        simp only [List.mem_singleton] at hf
        subst hf
        split_ifs
        · exact ⟨h3, h1, h2⟩
        · exact ⟨h3, h1, collapse_sp h2 hsp.2.2.2.1⟩
      · intro f g as bs he
        rcases as with _ | ⟨x, as⟩
        · simp at he
        · rcases as with _ | ⟨y, as⟩ <;> simp at he
    | cons d ds =>
      refine ⟨⟨b, s, [' ']⟩ :: fs, ?_, by simp [i2], ?_, ?_⟩
      · change (if hasPoint (toText c) then
            [{ out defaultConcat (toText c) with
              after := collapse [(out defaultConcat (toText c)).after, defaultConcat e.elem (toText c) (toText d)] }] else []) ++
            childFrags defaultConcat (out defaultConcat) e.elem (toText.go (d :: ds)) = _
        rw [hasPoint_toText, if_pos rfl, i1]
        simp only [ho, defaultConcat, hb, collapse_right h2, List.singleton_append]
      · intro f hf
        rcases List.mem_cons.1 hf with rfl | hf
        · exact ⟨h3, h1, .inr rfl⟩
        · exact i3 f hf
      · intro f g as bs he
        cases as with
        | nil => simp only [List.nil_append, List.cons.injEq] at he; rw [← he.1]
        | cons x as =>
          simp only [List.cons_append, List.cons.injEq] at he
          exact i4 f g as bs he.2

theorem sep_of (fs : List Frag) (h : ∀ f g as bs, fs = as ++ f :: g :: bs → f.after = [' '] ∨ g.before = [' ']) : Sep fs := by
  induction fs with
  | nil => trivial
  | cons f fs ih =>
    cases fs with
    | nil => trivial
    | cons g fs => exact ⟨h f g [] fs rfl, ih fun x y as bs he => h x y (f :: as) bs (by rw [he]; rfl)⟩

theorem getLast_sp (fs : List Frag) (h : ∀ f ∈ fs, Good f) : Sp ((fs.getLast?.map Frag.after).getD []) := by
  cases hl : fs.getLast? with
  | none => exact .inl rfl
  | some f => exact (h f (List.mem_of_getLast? hl)).2.2

/-- A command with arguments. -/
theorem gives_head (e : El) (hk : e.elem.kind = .head) (hb : e.elem.sp.between = [' ']) (ha : e.elem.sp.afterHead = [' '])
    (hh : e.elem.head ≠ []) (cs : List (Node.Tree El)) (ss : List Str) (h : List.Forall₂ Gives cs ss) :
    Gives (.node e cs) (e.elem.head ++ spaced ss) := by
  obtain ⟨fs, h1, h2, h3, h4⟩ := childFrags_gives e hb cs ss h
  have hsp := elem_sp e
  have hp := plain_toText (.node e cs)
  rw [toText] at hp
  have ht : tailFrag e.elem = [] := by simp [tailFrag, hk]
  unfold Gives
  rw [toText, C37_compositional _ _ _ hp, h1, ht, List.append_nil]
  obtain ⟨f, hf, g1, g2, g3⟩ : ∃ f, headFrag e.elem (toText.go cs).length = [f] ∧ Good f ∧ f.text = e.elem.head ∧
      (f.after = [' '] ∨ fs = []) := by
    unfold headFrag
    rw [if_neg hsp.2.2.2.2.2, toText_length]
    split_ifs with hc
    · refine ⟨_, rfl, ⟨hh, hsp.1, hsp.2.2.2.1⟩, rfl, .inr ?_⟩
      have : cs = [] := List.length_eq_zero_iff.1 hc.1
      subst this
      exact h1.symm
    · exact ⟨_, rfl, ⟨hh, hsp.1, hsp.2.1⟩, rfl, .inl ha⟩
  rw [hf, List.singleton_append]
  have hgood : ∀ g ∈ f :: fs, Good g := by
    intro g hg
    rcases List.mem_cons.1 hg with rfl | hg
    · exact g1
    · exact h3 g hg
  have hs : Sep (f :: fs) := by
    apply sep_of
    intro x y as bs he
    cases as with
    | nil =>
      simp only [List.nil_append, List.cons.injEq] at he
      rw [← he.1]
      rcases g3 with g3 | g3
      · exact .inl g3
      · rw [g3] at he; simp at he
    | cons z as =>
      simp only [List.cons_append, List.cons.injEq] at he
      exact .inl (h4 x y as bs he.2)
  rw [combine_good f fs hgood hs, g2, h2]
  exact ⟨_, _, rfl, g1.2.1, getLast_sp _ hgood, by simp [hh]⟩

/-- A list in braces. -/
theorem gives_list (cs : List (Node.Tree El)) (ss : List Str) (h : List.Forall₂ Gives cs ss) :
    Gives (.node .list cs) ('{' :: (spaced ss ++ [' ', '}'])) := by
  obtain ⟨fs, h1, h2, h3, h4⟩ := childFrags_gives .list rfl cs ss h
  have hp := plain_toText (.node .list cs)
  rw [toText] at hp
  unfold Gives
  rw [toText, C37_compositional _ _ _ hp, h1]
  have hf : headFrag El.list.elem (toText.go cs).length = [⟨[], ['{'], [' ']⟩] := by
    unfold headFrag
    simp [El.elem]
  have ht : tailFrag El.list.elem = [⟨[' '], ['}'], []⟩] := rfl
  rw [hf, ht, List.singleton_append, List.cons_append]
  have hgood : ∀ g ∈ (⟨[], ['{'], [' ']⟩ :: (fs ++ [⟨[' '], ['}'], []⟩]) : List Frag), Good g := by
    intro g hg
    simp only [List.mem_cons, List.mem_append, List.not_mem_nil, or_false] at hg
    rcases hg with rfl | hg | rfl
    · exact ⟨by simp, .inl rfl, .inr rfl⟩
    · exact h3 g hg
    · exact ⟨by simp, .inr rfl, .inl rfl⟩
  have hs : Sep (⟨[], ['{'], [' ']⟩ :: (fs ++ [⟨[' '], ['}'], []⟩]) : List Frag) := by
    apply sep_of
    intro x y as bs he
    cases as with
    | nil =>
      simp only [List.nil_append, List.cons.injEq] at he
      rw [← he.1]; exact .inl rfl
    | cons z as =>
      simp only [List.cons_append, List.cons.injEq] at he
      have he := he.2
      rcases List.eq_nil_or_concat bs with rfl | ⟨bs, w, rfl⟩
      · have : fs ++ [⟨[' '], ['}'], []⟩] = (as ++ [x]) ++ [y] := by simpa using he
        have := List.append_inj_right' this (by simp)
        simp only [List.cons.injEq, and_true] at this
        rw [← this]; exact .inr rfl
      · have : fs ++ [⟨[' '], ['}'], []⟩] = (as ++ x :: y :: bs) ++ [w] := by simpa using he
        exact .inl (h4 x y as bs (List.append_inj_left' this (by simp)))
  rw [combine_good _ _ hgood hs]
  have hsp : ∀ (xs ys : List Str), spaced (xs ++ ys) = spaced xs ++ spaced ys := by
    intro xs ys
    induction xs with
    | nil => rfl
    | cons x xs ih => simp [spaced, ih]
  refine ⟨_, _, ?_, .inl rfl, getLast_sp _ hgood, by simp⟩
  congr 1
  rw [List.map_append, hsp, h2]
  simp [spaced]

/-- An element without children. -/
theorem gives_leaf (e : El) (hk : e.elem.kind = .head) (hh : e.elem.head ≠ []) : Gives (.node e []) e.elem.head := by
  have hsp := elem_sp e
  have hp := plain_toText (.node e [])
  rw [toText] at hp
  have ht : tailFrag e.elem = [] := by simp [tailFrag, hk]
  unfold Gives
  rw [toText, C37_compositional _ _ _ hp, ht]
  have hf : headFrag e.elem (toText.go []).length = [⟨e.elem.sp.before, e.elem.head, e.elem.sp.after⟩] := by
    simp [headFrag, hk, toText.go]
  rw [hf]
  simp only [toText.go, childFrags, List.append_nil]
  have hg : Good ⟨e.elem.sp.before, e.elem.head, e.elem.sp.after⟩ := ⟨hh, hsp.1, hsp.2.2.2.1⟩
  rw [combine_good _ [] (by simpa using hg) trivial]
  exact ⟨e.elem.sp.before, e.elem.sp.after, by simp [spaced], hsp.1, hsp.2.2.2.1, hh⟩

/-- `#` and a Scheme expression. -/
theorem gives_scheme (t : Node.Tree El) (s : Str) (h : out defaultConcat (toText t) = ⟨[], s, []⟩) (hs : s ≠ []) :
    Gives (.node .scheme [t]) ('#' :: s) := by
  have hp := plain_toText (.node .scheme [t])
  rw [toText] at hp
  unfold Gives
  rw [toText, C37_compositional _ _ _ hp]
  have hf : headFrag El.scheme.elem (toText.go [t]).length = [⟨[' '], ['#'], []⟩] := by
    simp [headFrag, El.elem, toText.go]
  have ht : tailFrag El.scheme.elem = [] := rfl
  have hc : childFrags defaultConcat (out defaultConcat) El.scheme.elem (toText.go [t]) = [⟨[], s, [' ']⟩] := by
    simp only [toText.go, childFrags, hasPoint_toText, if_true, h]
    rfl
  rw [hf, ht, hc, combine_eq]
  simp only [List.append_nil, List.singleton_append, layout, if_neg hs, List.cons_ne_nil, if_false, Text.Spec.join, lastWishes]
  exact ⟨[' '], [' '], rfl, .inr rfl, .inr rfl, by simp⟩

end Quickly.Markup
