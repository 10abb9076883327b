import Verif.Text.Lemmas

/-!
# C36 and C37: combining text, and the output of elements
-/

namespace Quickly.Text

open Quickly.Node Quickly.Text.Spec

/-! ## C36 -/

/-- C36: the result is the most important of the whitespaces. -/
theorem C36_collapse (ws : List Str) (h : ws ≠ []) : MostImportant ws (collapse ws) := by
  induction ws with
  | nil => exact absurd rfl h
  | cons x xs ih =>
    cases xs with
    | nil =>
      refine ⟨[], [], rfl, ?_, by simp⟩
      intro y hy
      simp only [List.mem_singleton] at hy
      subst hy
      exact atMost_refl _
    | cons z zs =>
      rw [collapse_cons]
      obtain ⟨as, bs, h1, h2, h3⟩ := ih (by simp)
      unfold imp
      by_cases hk : keyLt (key x) (key (collapse (z :: zs))) = true
      · rw [if_pos hk]
        rw [keyLt_iff] at hk
        refine ⟨x :: as, bs, congrArg (x :: ·) h1, ?_, ?_⟩
        · intro y hy
          rcases List.mem_cons.mp hy with rfl | hy
          · exact (atMost_total _ _).resolve_right hk
          · exact h2 y hy
        · intro y hy
          rcases List.mem_cons.mp hy with rfl | hy
          · exact hk
          · exact h3 y hy
      · rw [if_neg hk]
        rw [keyLt_iff, not_not] at hk
        refine ⟨[], z :: zs, rfl, ?_, by simp⟩
        intro y hy
        rcases List.mem_cons.mp hy with rfl | hy
        · exact atMost_refl _
        · exact atMost_trans (h2 y hy) hk

/-- C36: without whitespaces the result is the empty string. -/
theorem C36_collapse_none : collapse [] = [] := rfl

/-- C36: there is only one most important whitespace. -/
theorem C36_collapse_unique (ws : List Str) (w : Str) (h : MostImportant ws w) : w = collapse ws := by
  obtain ⟨as, bs, h1, h2, h3⟩ := h
  have hne : ws ≠ [] := by rw [h1]; simp
  obtain ⟨cs, ds, k1, k2, k3⟩ := C36_collapse ws hne
  have hw : w ∈ ws := by rw [h1]; simp
  have hc : collapse ws ∈ ws := collapse_mem hne
  have k1 := h1.symm.trans k1
  rcases List.append_eq_append_iff.mp k1 with ⟨x, e1, e2⟩ | ⟨x, e1, e2⟩
  · cases x with
    | nil => simp only [List.nil_append, List.cons.injEq] at e2; exact e2.1
    | cons y x =>
      simp only [List.cons_append, List.cons.injEq] at e2
      exact absurd (h2 _ hc) (k3 w (by rw [e1, ← e2.1]; simp))
  · cases x with
    | nil => simp only [List.nil_append, List.cons.injEq] at e2; exact e2.1.symm
    | cons y x =>
      simp only [List.cons_append, List.cons.injEq] at e2
      exact absurd (k2 _ hw) (h3 _ (by rw [e1, ← e2.1]; simp))

/-- C36: `combine_text` gives the texts with the most important wish between each two, and the
most important of the wishes before the first text and after the last one. Without a text there
is nothing before, and all wishes are after. -/
theorem C36_combine (fs : List Frag) :
    combine fs = match layout fs with
      | (ws, []) => ⟨[], [], collapse ws⟩
      | (ws, ts) => ⟨collapse ws, join ts, collapse (lastWishes ts)⟩ := by
  rw [combine_eq]
  obtain ⟨g, r⟩ := layout fs
  cases r with
  | nil => rfl
  | cons u us => rfl

/-- C36: the texts are those of the fragments, in order; only empty ones are left out. -/
theorem C36_texts (fs : List Frag) : ∃ gaps, gaps.length = ((fs.map Frag.text).filter (· ≠ [])).length - 1 ∧
    (∀ g ∈ gaps, ∃ f ∈ fs, g = f.before ∨ g = f.after) ∧
    (combine fs).text = weave ((fs.map Frag.text).filter (· ≠ [])) gaps := by
  refine ⟨(layout fs).2.dropLast.map fun u => collapse u.2, ?_, ?_, ?_⟩
  · rw [← layout_texts]; simp
  · intro g hg
    obtain ⟨u, hu, rfl⟩ := List.mem_map.mp hg
    have hu := List.dropLast_subset _ hu
    exact (layout_wish fs (fun w => ∃ f ∈ fs, w = f.before ∨ w = f.after)
      (fun f hf => ⟨⟨f, hf, .inl rfl⟩, ⟨f, hf, .inr rfl⟩⟩)).2 u hu _ (collapse_mem (layout_snd_ne fs u hu))
  · rw [combine_eq, ← layout_texts]
    exact join_weave _

/-- C36: combining can be done piecewise: combining the combinations of parts is
combining all, when the whitespace consists of newlines and spaces. -/
theorem C36_piecewise (parts : List (List Frag)) (h : ∀ fs ∈ parts, ∀ f ∈ fs, Plain f.before ∧ Plain f.after) :
    combine parts.flatten = combine (parts.map combine) := combine_flatten parts h

/-- C36: with a tab it is not so; a tab counts as little as no whitespace. -/
theorem C36_tab_not_piecewise :
    combine ([⟨[], [], ['\t']⟩] ++ [⟨[], ['a'], []⟩]) = ⟨[], ['a'], []⟩ ∧
    combine [⟨['\t'], [], []⟩, ⟨[], ['a'], []⟩] ≠
      combine ([[⟨['\t'], [], []⟩], [⟨[], ['a'], []⟩]].map combine) := by decide

example : collapse [[' '], ['\n'], [' ', ' ']] = ['\n'] := by decide
example : MostImportant [[' '], ['\n'], [' ', ' ']] ['\n'] := by
  have := C36_collapse [[' '], ['\n'], [' ', ' ']] (by simp)
  have e : collapse [[' '], ['\n'], [' ', ' ']] = ['\n'] := by decide
  rwa [e] at this
example : combine [⟨[' '], ['a'], []⟩, ⟨[' '], [], ['\n']⟩, ⟨[], ['b'], [' ']⟩] = ⟨[' '], ['a', '\n', 'b'], [' ']⟩ := by decide
example : ∀ fs ∈ [[(⟨[' '], ['a'], ['\n']⟩ : Frag)], [⟨[], ['b'], [' ']⟩]], ∀ f ∈ fs, Plain f.before ∧ Plain f.after := by
  simp [Plain]

/-! ## Points -/

mutual
theorem points_texts (cc : Concat) (t : Tree Elem) : ((points cc t).map Point.text).filter (· ≠ []) = texts t := by
  cases t with
  | node e cs =>
    simp only [points, texts, List.map_append, List.filter_append, kids_texts]
    congr 1
    · congr 1
      unfold headPoint some?
      split
      · rfl
      · simp only [Option.toList_some, List.map_cons, List.map_nil, List.filter_cons, List.filter_nil]
        by_cases h : e.head = [] <;> simp [h]
    · unfold tailPoint some?
      split
      · simp only [Option.toList_some, List.map_cons, List.map_nil, List.filter_cons, List.filter_nil]
        by_cases h : e.tail = [] <;> simp [h]
      · rfl
theorem kids_texts (cc : Concat) (e : Elem) (cs : List (Tree Elem)) :
    ((points.kids cc e cs).map Point.text).filter (· ≠ []) = texts.go cs := by
  cases cs with
  | nil => rfl
  | cons n ns =>
    have h1 := points_texts cc n
    have h2 := kids_texts cc e ns
    simp only [points.kids, texts.go, List.map_append, List.filter_append, h2]
    congr 1
    cases ns with
    | cons m ms => simp only [collapseLast_texts]; exact h1
    | nil =>
      simp only
      split
      · exact h1
      · rw [collapseLast_texts]; exact h1
end

mutual
theorem points_wish (cc : Concat) (t : Tree Elem) : ∀ p ∈ points cc t, Wish cc t p.before ∧ Wish cc t p.after := by
  cases t with
  | node e cs =>
    intro p hp
    simp only [points, List.mem_append] at hp
    rcases hp with (hp | hp) | hp
    · unfold headPoint at hp
      split at hp
      · simp at hp
      · simp only [Option.toList_some, List.mem_singleton] at hp
        subst hp
        refine ⟨.before, ?_⟩
        dsimp only
        split
        · exact .afterHead
        · exact .after
    · have := kids_wish cc e [] cs p
      simp only [List.nil_append] at this
      exact this hp
    · unfold tailPoint at hp
      split at hp
      · simp only [Option.toList_some, List.mem_singleton] at hp
        subst hp
        exact ⟨.beforeTail, .after⟩
      · simp at hp
theorem kids_wish (cc : Concat) (e : Elem) (as cs : List (Tree Elem)) :
    ∀ p ∈ points.kids cc e cs, Wish cc (.node e (as ++ cs)) p.before ∧ Wish cc (.node e (as ++ cs)) p.after := by
  cases cs with
  | nil => simp [points.kids]
  | cons n ns =>
    have h1 : ∀ p ∈ points cc n, Wish cc (.node e (as ++ n :: ns)) p.before ∧ Wish cc (.node e (as ++ n :: ns)) p.after :=
      fun p hp => by
        obtain ⟨a, b⟩ := points_wish cc n p hp
        exact ⟨.child (by simp) a, .child (by simp) b⟩
    have h2 := kids_wish cc e (as ++ [n]) ns
    simp only [List.append_assoc, List.singleton_append] at h2
    intro p hp
    simp only [points.kids, List.mem_append] at hp
    rcases hp with hp | hp
    · cases ns with
      | cons m ms => exact collapseLast_wish _ _ _ .between h1 p hp
      | nil =>
        simp only at hp
        split at hp
        · exact h1 p hp
        · exact collapseLast_wish _ _ _ .after h1 p hp
    · exact h2 p hp
end

theorem frags_wish (cc : Concat) (t : Tree Elem) : ∀ f ∈ frags (points cc t), Wish cc t f.before ∧ Wish cc t f.after := by
  intro f hf
  obtain ⟨p, hp, rfl⟩ := List.mem_map.mp hf
  exact points_wish cc t p hp

theorem layout_nil_iff (cc : Concat) (t : Tree Elem) : (layout (frags (points cc t))).2 = [] ↔ texts t = [] := by
  have := layout_texts (frags (points cc t))
  rw [frags_text, points_texts] at this
  rw [← this, List.map_eq_nil_iff]

/-! ## C37 -/

/-- What an element writes, with the whitespace it wants before and after. -/
def out (cc : Concat) (t : Tree Elem) : Frag := combine (frags (points cc t))

theorem write_eq (cc : Concat) (t : Tree Elem) : write cc t = (out cc t).text := rfl

/-- C37: `write()` gives all texts of the tree in document order, each once, and between each
two a whitespace wish of an element. -/
theorem C37_texts (cc : Concat) (t : Tree Elem) :
    ∃ gaps, gaps.length = (texts t).length - 1 ∧ (∀ g ∈ gaps, Wish cc t g) ∧ write cc t = weave (texts t) gaps := by
  obtain ⟨gaps, h1, h2, h3⟩ := C36_texts (frags (points cc t))
  rw [frags_text, points_texts] at h1 h3
  refine ⟨gaps, h1, ?_, h3⟩
  intro g hg
  obtain ⟨f, hf, rfl | rfl⟩ := h2 g hg
  · exact (frags_wish cc t f hf).1
  · exact (frags_wish cc t f hf).2

/-- Removing whitespace. -/
def squeeze (s : Str) : Str := s.filter (fun c => c ≠ '\n' ∧ c ≠ ' ')

theorem squeeze_plain {s : Str} (h : Plain s) : squeeze s = [] := by
  unfold squeeze
  rw [List.filter_eq_nil_iff]
  intro c hc
  rcases h c hc with rfl | rfl <;> simp

theorem squeeze_weave (ts gs : List Str) (hl : gs.length = ts.length - 1) (hg : ∀ g ∈ gs, Plain g) :
    squeeze (weave ts gs) = squeeze ts.flatten := by
  induction ts generalizing gs with
  | nil => simp [weave]
  | cons t ts ih =>
    cases ts with
    | nil =>
      cases gs with
      | nil => simp [weave]
      | cons => simp at hl
    | cons u us =>
      cases gs with
      | nil => simp at hl
      | cons g gs =>
        have := ih gs (by simpa using hl) (fun x hx => hg x (by simp [hx]))
        have h2 := squeeze_plain (hg g (by simp))
        simp only [weave]
        unfold squeeze at *
        rw [List.flatten_cons, List.filter_append, List.filter_append, List.filter_append, h2, this]
        simp

/-- C37: with whitespace removed, `write()` is all texts after each other. -/
theorem C37_squeezed (cc : Concat) (t : Tree Elem) (h : allPlain cc t) : squeeze (write cc t) = squeeze (texts t).flatten := by
  obtain ⟨gaps, h1, h2, h3⟩ := C37_texts cc t
  rw [h3]
  exact squeeze_weave _ _ h1 (fun g hg => h g (h2 g hg))

/-- The points of children in the middle. -/
theorem kids_append (cc : Concat) (e : Elem) (as bs : List (Tree Elem)) (hb : bs ≠ []) :
    ∃ ps, points.kids cc e (as ++ bs) = ps ++ points.kids cc e bs := by
  induction as with
  | nil => exact ⟨[], rfl⟩
  | cons a as ih =>
    obtain ⟨ps, h⟩ := ih
    rw [List.cons_append, points.kids.eq_def]
    simp only [h]
    exact ⟨_, (List.append_assoc _ _ _).symm⟩

theorem text_eq_of_texts {A B : List Point} (w : Str) (h : A = collapseLast B w) :
    (combine (frags A)).text = (combine (frags B)).text := by
  subst h
  by_cases hb : B = []
  · subst hb; rfl
  · rw [combine_collapseLast w hb]

theorem text_append' (A B : List Frag) : ∃ g, (combine (A ++ B)).text = (combine A).text ++ g ++ (combine B).text :=
  ⟨_, text_append A B⟩

/-- The text of a list of fragments in the middle stays as it is. -/
theorem text_mid (A P B : List Frag) : ∃ X Y, (combine (A ++ (P ++ B))).text = X ++ (combine P).text ++ Y := by
  obtain ⟨g, hg⟩ := text_append' A (P ++ B)
  obtain ⟨k, hk⟩ := text_append' P B
  rw [hg, hk]
  exact ⟨(combine A).text ++ g, k ++ (combine B).text, by simp only [List.append_assoc]⟩

theorem kids_cons (cc : Concat) (e : Elem) (n : Tree Elem) (ns : List (Tree Elem)) :
    ∃ ps, points.kids cc e (n :: ns) = ps ++ points.kids cc e ns ∧
      (combine (frags ps)).text = write cc n ∧ ((layout (frags ps)).2 = [] ↔ texts n = []) ∧
      (combine (frags ps)).before = (out cc n).before := by
  have key : ∀ w, (combine (frags (collapseLast (points cc n) w))).text = write cc n ∧
      ((layout (frags (collapseLast (points cc n) w))).2 = [] ↔ texts n = []) ∧
      (combine (frags (collapseLast (points cc n) w))).before = (out cc n).before := by
    intro w
    by_cases hb : points cc n = []
    · have := layout_nil_iff cc n
      rw [hb] at this ⊢
      exact ⟨by rw [write_eq, out, hb]; rfl, this, by rw [out, hb]; rfl⟩
    · refine ⟨by rw [combine_collapseLast w hb]; rfl, ?_, by rw [combine_collapseLast w hb]; rfl⟩
      rw [← layout_nil_iff cc n]
      exact text_congr (by rw [frags_text, frags_text, collapseLast_texts])
  unfold points.kids
  cases ns with
  | cons m ms => exact ⟨_, rfl, key _⟩
  | nil =>
    simp only
    split
    · exact ⟨_, rfl, rfl, layout_nil_iff cc n, rfl⟩
    · exact ⟨_, rfl, key _⟩

/-- C37: what a child writes by itself stands in the output of its parent without changes (and so with
every descendant). -/
theorem C37_child (cc : Concat) (e : Elem) (as : List (Tree Elem)) (c : Tree Elem) (bs : List (Tree Elem)) :
    ∃ X Y, write cc (.node e (as ++ c :: bs)) = X ++ write cc c ++ Y := by
  obtain ⟨ps, h⟩ := kids_append cc e as (c :: bs) (by simp)
  obtain ⟨qs, h1, h2, -⟩ := kids_cons cc e c bs
  have : frags (points cc (.node e (as ++ c :: bs))) =
      frags ((headPoint e (as ++ c :: bs).length).toList ++ ps) ++ (frags qs ++
        frags (points.kids cc e bs ++ (tailPoint e).toList)) := by
    simp only [points, h, h1, frags, List.map_append, List.append_assoc]
  rw [write_eq, out, this, ← h2]
  exact text_mid _ _ _

/-- The gap between two lists of fragments that have text. -/
theorem gap_between (A P Q B : List Frag) (hP : (layout P).2 ≠ []) (hQ : (layout Q).2 ≠ []) :
    ∃ X Y, (combine (A ++ (P ++ (Q ++ B)))).text =
      X ++ (combine P).text ++ collapse (lastWishes (layout P).2 ++ (layout Q).1) ++ (combine Q).text ++ Y := by
  obtain ⟨g1, g2⟩ := layout_fst_append B hQ
  obtain ⟨g, hg⟩ := text_append' A (P ++ (Q ++ B))
  obtain ⟨k, hk⟩ := text_append' Q B
  rw [hg, text_append P, hk, g1, if_neg (by simp [hP, g2])]
  exact ⟨(combine A).text ++ g, k ++ (combine B).text, by simp only [List.append_assoc]⟩

theorem before_gap {Q : List Frag} (hQ : (layout Q).2 ≠ []) (xs : List Str) :
    AtMost (combine Q).before (collapse (xs ++ (layout Q).1)) := by
  have hne : (layout Q).1 ≠ [] := layout_fst_ne (by rintro rfl; exact hQ rfl)
  rw [combine_eq]
  simp only [if_neg hQ]
  exact collapse_max (List.mem_append_right _ (collapse_mem hne))

theorem after_gap {P : List Frag} (hP : (layout P).2 ≠ []) (ys : List Str) :
    AtMost (combine P).after (collapse (lastWishes (layout P).2 ++ ys)) := by
  obtain ⟨u, hu, he⟩ := lastWishes_mem hP
  have hne : lastWishes (layout P).2 ≠ [] := by rw [he]; exact layout_snd_ne P u hu
  rw [combine_eq]
  simp only [if_neg hP]
  exact collapse_max (List.mem_append_left _ (collapse_mem hne))

/-- C37: between two adjacent children that have text stands whitespace that is at least as important as
the space the parent wants between them, the space that the left one wants after it, and the
space that the right one wants before it. -/
theorem C37_between (cc : Concat) (e : Elem) (as : List (Tree Elem)) (c d : Tree Elem) (bs : List (Tree Elem))
    (hc : texts c ≠ []) (hd : texts d ≠ []) :
    ∃ X g Y, write cc (.node e (as ++ c :: d :: bs)) = X ++ write cc c ++ g ++ write cc d ++ Y ∧
      Wish cc (.node e (as ++ c :: d :: bs)) g ∧
      AtMost (cc e c d) g ∧ AtMost (out cc c).after g ∧ AtMost (out cc d).before g := by
  obtain ⟨ps, h⟩ := kids_append cc e as (c :: d :: bs) (by simp)
  obtain ⟨qs, h1, h2, h3, h4⟩ := kids_cons cc e d bs
  have hpc : points cc c ≠ [] := by
    intro h0
    have := layout_nil_iff cc c
    rw [h0] at this
    exact hc (this.mp rfl)
  have hk : points.kids cc e (c :: d :: bs) = collapseLast (points cc c) (cc e c d) ++ points.kids cc e (d :: bs) := by
    rw [points.kids]
  have hall : frags (points cc (.node e (as ++ c :: d :: bs))) =
      frags ((headPoint e (as ++ c :: d :: bs).length).toList ++ ps) ++
      (frags (collapseLast (points cc c) (cc e c d)) ++ (frags qs ++
        frags (points.kids cc e bs ++ (tailPoint e).toList))) := by
    simp only [points, h, hk, h1, frags, List.map_append, List.append_assoc]
  have hP : (layout (frags (collapseLast (points cc c) (cc e c d)))).2 ≠ [] := by
    rw [Ne, text_congr (B := frags (points cc c)) (by rw [frags_text, frags_text, collapseLast_texts]), layout_nil_iff]
    exact hc
  have hQ : (layout (frags qs)).2 ≠ [] := fun h => hd (h3.mp h)
  obtain ⟨X, Y, hg⟩ := gap_between (frags ((headPoint e (as ++ c :: d :: bs).length).toList ++ ps)) _ _
    (frags (points.kids cc e bs ++ (tailPoint e).toList)) hP hQ
  have hcl := combine_collapseLast (cc e c d) hpc
  have hafter := after_gap hP (layout (frags qs)).1
  refine ⟨X, collapse (lastWishes (layout (frags (collapseLast (points cc c) (cc e c d)))).2 ++ (layout (frags qs)).1),
    Y, ?_, ?_, ?_, ?_, ?_⟩
  · rw [write_eq, out, hall, hg, h2, hcl]
    rfl
  · -- it is a wish
    have hw := frags_wish cc (.node e (as ++ c :: d :: bs))
    rw [hall] at hw
    have w1 := layout_wish (frags (collapseLast (points cc c) (cc e c d))) (Wish cc (.node e (as ++ c :: d :: bs)))
      (fun f hf => hw f (by simp only [List.mem_append]; exact .inr (.inl hf)))
    have w2 := layout_wish (frags qs) (Wish cc (.node e (as ++ c :: d :: bs)))
      (fun f hf => hw f (by simp only [List.mem_append]; exact .inr (.inr (.inl hf))))
    obtain ⟨u, hu, he⟩ := lastWishes_mem hP
    have hne : lastWishes (layout (frags (collapseLast (points cc c) (cc e c d)))).2 ≠ [] := by
      rw [he]; exact layout_snd_ne _ u hu
    have hm := collapse_mem (xs := lastWishes (layout (frags (collapseLast (points cc c) (cc e c d)))).2 ++ (layout (frags qs)).1)
      (by simp [hne])
    rcases List.mem_append.mp hm with hm | hm
    · rw [he] at hm
      exact w1.2 u hu _ (by rw [he]; exact hm)
    · exact w2.1 _ hm
  · refine atMost_trans ?_ hafter
    rw [hcl]
    exact imp_right _ _
  · refine atMost_trans ?_ hafter
    rw [hcl]
    exact imp_left _ _
  · rw [← h4]
    exact before_gap hQ _

/-- C37: after the head comes whitespace that is at least as important as `space_after_head` and the space that
the first child wants before it. -/
theorem C37_after_head (cc : Concat) (e : Elem) (c : Tree Elem) (bs : List (Tree Elem)) (hk : e.kind ≠ .plain)
    (hh : e.head ≠ []) (hc : texts c ≠ []) :
    ∃ g Y, write cc (.node e (c :: bs)) = e.head ++ g ++ write cc c ++ Y ∧ Wish cc (.node e (c :: bs)) g ∧
      AtMost e.sp.afterHead g ∧ AtMost (out cc c).before g := by
  obtain ⟨qs, h1, h2, h3, h4⟩ := kids_cons cc e c bs
  have hQ : (layout (frags qs)).2 ≠ [] := fun h => hc (h3.mp h)
  have hhead : frags (headPoint e (c :: bs).length).toList = [⟨e.sp.before, e.head, e.sp.afterHead⟩] := by
    simp [headPoint, hk, frags, Point.frag]
  have hl : layout [(⟨e.sp.before, e.head, e.sp.afterHead⟩ : Frag)] = ([e.sp.before], [(e.head, [e.sp.afterHead])]) := by
    simp [layout, hh]
  have hP : (layout [(⟨e.sp.before, e.head, e.sp.afterHead⟩ : Frag)]).2 ≠ [] := by rw [hl]; simp
  have hall : frags (points cc (.node e (c :: bs))) =
      [] ++ ([(⟨e.sp.before, e.head, e.sp.afterHead⟩ : Frag)] ++ (frags qs ++
        frags (points.kids cc e bs ++ (tailPoint e).toList))) := by
    rw [← hhead]
    simp only [points, h1, frags, List.map_append, List.append_assoc, List.nil_append]
  have htext : (combine [(⟨e.sp.before, e.head, e.sp.afterHead⟩ : Frag)]).text = e.head := by
    rw [combine_eq, hl]; rfl
  obtain ⟨g1, g2⟩ := layout_fst_append (frags (points.kids cc e bs ++ (tailPoint e).toList)) hQ
  obtain ⟨k, hk'⟩ := text_append' (frags qs) (frags (points.kids cc e bs ++ (tailPoint e).toList))
  refine ⟨collapse ([e.sp.afterHead] ++ (layout (frags qs)).1), k ++ (combine (frags (points.kids cc e bs ++ (tailPoint e).toList))).text,
    ?_, ?_, ?_, ?_⟩
  · rw [write_eq, out, hall, List.nil_append, text_append, hk', htext, if_neg (not_or.mpr ⟨hP, g2⟩), hl, g1, h2]
    simp [lastWishes, List.append_assoc]
  · have hm := collapse_mem (xs := [e.sp.afterHead] ++ (layout (frags qs)).1) (by simp)
    have hw := frags_wish cc (.node e (c :: bs))
    rw [hall] at hw
    have w2 := layout_wish (frags qs) (Wish cc (.node e (c :: bs)))
      (fun f hf => hw f (by simp only [List.mem_append]; exact .inr (.inr (.inl hf))))
    rcases List.mem_append.mp hm with hm | hm
    · simp only [List.mem_singleton] at hm
      rw [List.singleton_append] at hm ⊢
      rw [hm]; exact .afterHead
    · exact w2.1 _ hm
  · exact collapse_max (by simp)
  · rw [← h4]
    exact before_gap hQ _

mutual
theorem hasPoint_iff (cc : Concat) (t : Tree Elem) : hasPoint t = true ↔ points cc t ≠ [] := by
  cases t with
  | node e cs =>
    have := kids_hasPoint cc e cs
    simp only [hasPoint, points, Bool.or_eq_true, bne_iff_ne, ne_eq, List.append_eq_nil_iff, this]
    unfold headPoint tailPoint
    cases hk : e.kind <;> simp
theorem kids_hasPoint (cc : Concat) (e : Elem) (cs : List (Tree Elem)) :
    hasPoint.go cs = true ↔ points.kids cc e cs ≠ [] := by
  cases cs with
  | nil => simp [hasPoint.go, points.kids]
  | cons n ns =>
    have h1 := hasPoint_iff cc n
    have h2 := kids_hasPoint cc e ns
    have h3 : ∀ w, collapseLast (points cc n) w = [] ↔ points cc n = [] := by
      intro w
      rcases List.eq_nil_or_concat (points cc n) with h | ⟨qs, q, h⟩
      · rw [h]; simp [collapseLast]
      · rw [h, List.concat_eq_append, collapseLast_snoc]; simp
    simp only [hasPoint.go, points.kids, Bool.or_eq_true, h1, h2, ne_eq, List.append_eq_nil_iff, not_and_or]
    refine or_congr (not_congr ?_) Iff.rfl
    cases ns with
    | cons m ms => exact (h3 _).symm
    | nil =>
      simp only
      split
      · exact Iff.rfl
      · exact (h3 _).symm
end

theorem plainF_kids {cc : Concat} {e : Elem} {cs : List (Tree Elem)} (h : allPlain cc (.node e cs)) (as ns : List (Tree Elem))
    (hc : cs = as ++ ns) : PlainF (frags (points.kids cc e ns)) := by
  intro f hf
  obtain ⟨p, hp, rfl⟩ := List.mem_map.mp hf
  subst hc
  have := kids_wish cc e as ns p hp
  exact ⟨h _ this.1, h _ this.2⟩

theorem childFrags_eq {cc : Concat} {e : Elem} {cs : List (Tree Elem)} (h : allPlain cc (.node e cs))
    (as ns : List (Tree Elem)) (hc : cs = as ++ ns) :
    combine (frags (points.kids cc e ns)) = combine (childFrags cc (out cc) e ns) ∧ PlainF (childFrags cc (out cc) e ns) := by
  induction ns generalizing as with
  | nil => exact ⟨rfl, by intro f hf; simp [childFrags] at hf⟩
  | cons n ns ih =>
    obtain ⟨ih1, ih2⟩ := ih (as ++ [n]) (by simp [hc])
    have hpl := plainF_kids h as (n :: ns) hc
    have hpn : PlainF (frags (points cc n)) := by
      intro f hf
      obtain ⟨p, hp, rfl⟩ := List.mem_map.mp hf
      have := points_wish cc n p hp
      exact ⟨h _ (.child (by simp [hc]) this.1), h _ (.child (by simp [hc]) this.2)⟩
    obtain ⟨pn1, pn2⟩ := combine_plain hpn
    -- the fragment of the child
    have key : ∀ (P : List Point) (x : Frag), P ≠ [] → PlainF (frags P) → x = combine (frags P) →
        combine (frags P ++ frags (points.kids cc e ns)) = combine ([x] ++ childFrags cc (out cc) e ns) ∧
        PlainF ([x] ++ childFrags cc (out cc) e ns) := by
      intro P x hP hPl hx
      have hpx : PlainF [x] := by
        intro f hf
        simp only [List.mem_singleton] at hf
        subst hf
        rw [hx]
        exact combine_plain hPl
      have hpk := plainF_kids h (as ++ [n]) ns (by simp [hc])
      refine ⟨?_, ?_⟩
      · rw [combine_append hPl hpk, combine_append hpx ih2, ih1]
        congr 1
        subst hx
        exact (combine_single (combine_norm _) (combine_plain hPl).2).symm
      · intro f hf
        rcases List.mem_append.mp hf with hf | hf
        · exact hpx f hf
        · exact ih2 f hf
    have hclp : ∀ w, Plain w → PlainF (frags (collapseLast (points cc n) w)) := by
      intro w hw f hf
      obtain ⟨p, hp, rfl⟩ := List.mem_map.mp hf
      exact collapseLast_wish Plain (points cc n) w hw (fun p hp => hpn _ (List.mem_map_of_mem hp)) p hp
    unfold points.kids childFrags
    by_cases hp : points cc n = []
    · have hhp : hasPoint n = false := by
        rw [← Bool.not_eq_true, hasPoint_iff cc n, not_not]; exact hp
      rw [hhp, hp]
      have hnil : ∀ w, collapseLast [] w = [] := fun _ => rfl
      cases ns with
      | cons m ms => simp only [hnil, List.nil_append, Bool.false_eq_true, if_false]; exact ⟨ih1, ih2⟩
      | nil =>
        simp only [hnil, List.nil_append, Bool.false_eq_true, if_false, ite_self]
        exact ⟨ih1, ih2⟩
    · have hhp : hasPoint n = true := (hasPoint_iff cc n).mpr hp
      have hne : ∀ w, collapseLast (points cc n) w ≠ [] := by
        intro w h0
        rcases List.eq_nil_or_concat (points cc n) with h | ⟨qs, q, h⟩
        · exact hp h
        · rw [h, List.concat_eq_append, collapseLast_snoc] at h0; simp at h0
      rw [hhp, if_pos rfl]
      unfold frags
      rw [List.map_append]
      cases ns with
      | cons m ms =>
        simp only
        refine key _ _ (hne _) (hclp _ (h _ (by rw [hc]; exact .between))) ?_
        rw [combine_collapseLast _ hp, collapse_two]
        rfl
      | nil =>
        simp only
        by_cases hb : e.kind = .block
        · have : (tailPoint e).isSome = true := by simp [tailPoint, hb]
          rw [if_pos this, if_pos hb]
          exact key _ _ hp hpn rfl
        · have : (tailPoint e).isSome = false := by simp [tailPoint, hb]
          rw [this, if_neg hb]
          simp only [Bool.false_eq_true, if_false]
          refine key _ _ (hne _) (hclp _ (h _ .after)) ?_
          rw [combine_collapseLast _ hp, collapse_two]
          rfl

/-- C37: the output of an element is determined by the outputs of its children: it is the head, the outputs of
the children with their whitespace wishes, and the tail, combined. -/
theorem C37_compositional (cc : Concat) (e : Elem) (cs : List (Tree Elem)) (h : allPlain cc (.node e cs)) :
    out cc (.node e cs) = combine (headFrag e cs.length ++ childFrags cc (out cc) e cs ++ tailFrag e) := by
  obtain ⟨h1, h2⟩ := childFrags_eq h [] cs rfl
  have hh : frags (headPoint e cs.length).toList = headFrag e cs.length := by
    unfold headPoint headFrag
    cases hk : e.kind <;> cases cs <;> simp [frags, Point.frag, hk, Elem.hasTail]
    split <;> simp_all
  have ht : frags (tailPoint e).toList = tailFrag e := by
    unfold tailPoint tailFrag
    split <;> rfl
  have ph : PlainF (headFrag e cs.length) := by
    intro f hf
    unfold headFrag at hf
    split at hf
    · simp at hf
    · split at hf
      · simp only [List.mem_singleton] at hf; subst hf; exact ⟨h _ .before, h _ .after⟩
      · simp only [List.mem_singleton] at hf; subst hf; exact ⟨h _ .before, h _ .afterHead⟩
  have pt : PlainF (tailFrag e) := by
    intro f hf
    unfold tailFrag at hf
    split at hf
    · simp only [List.mem_singleton] at hf; subst hf; exact ⟨h _ .beforeTail, h _ .after⟩
    · simp at hf
  have pk := plainF_kids h [] cs rfl
  have e1 : out cc (.node e cs) = combine (headFrag e cs.length ++ (points.kids cc e cs).map Point.frag ++ tailFrag e) := by
    rw [← hh, ← ht]
    unfold out frags
    rw [points, List.map_append, List.map_append]
  rw [e1]
  unfold frags at *
  have pa : PlainF (headFrag e cs.length ++ (points.kids cc e cs).map Point.frag) := by
    intro f hf
    rcases List.mem_append.mp hf with hf | hf
    · exact ph f hf
    · exact pk f hf
  have pb : PlainF (headFrag e cs.length ++ childFrags cc (out cc) e cs) := by
    intro f hf
    rcases List.mem_append.mp hf with hf | hf
    · exact ph f hf
    · exact h2 f hf
  have h1' : combine ((points.kids cc e cs).map Point.frag) = combine (childFrags cc (out cc) e cs) := h1
  rw [combine_append pa pt, combine_append pb pt, combine_append ph pk, combine_append ph h2, h1']

/-- A music list with two notes, `{ c d }`. -/
def exMusic : Tree Elem :=
  .node
    { kind := .block, head := ['{'], tail := ['}'],
      sp := { afterHead := [' '], between := [' '], beforeTail := ['\n'] } }
    [.node { kind := .head, head := ['c'] } [.node { kind := .head, head := ['\''] } []],
     .node { kind := .head, head := ['d'] } []]

example : write defaultConcat exMusic = ['{', ' ', 'c', '\'', ' ', 'd', '\n', '}'] := by decide +kernel
example : texts exMusic = [['{'], ['c'], ['\''], ['d'], ['}']] := by decide +kernel
example : allPlain defaultConcat exMusic := by
  intro w h
  unfold exMusic at h
  have key : ∀ (e : Elem) cs w, Wish defaultConcat (.node e cs) w → (w = e.sp.before ∨ w = e.sp.afterHead ∨ w = e.sp.between ∨
      w = e.sp.beforeTail ∨ w = e.sp.after) ∨ ∃ c ∈ cs, Wish defaultConcat c w := by
    intro e cs w h
    cases h with
    | before => exact .inl (.inl rfl)
    | afterHead => exact .inl (.inr (.inl rfl))
    | beforeTail => exact .inl (.inr (.inr (.inr (.inl rfl))))
    | after => exact .inl (.inr (.inr (.inr (.inr rfl))))
    | between => exact .inl (.inr (.inr (.inl rfl)))
    | child hc hw => exact .inr ⟨_, hc, hw⟩
  have hnil : Plain [] := by intro c hc; simp at hc
  rcases key _ _ _ h with h | ⟨c, hc, h⟩
  · rcases h with rfl | rfl | rfl | rfl | rfl <;> simp [Plain]
  · simp only [List.mem_cons, List.not_mem_nil, or_false] at hc
    rcases hc with rfl | rfl
    · rcases key _ _ _ h with h | ⟨c, hc, h⟩
      · rcases h with rfl | rfl | rfl | rfl | rfl <;> exact hnil
      · simp only [List.mem_singleton] at hc
        subst hc
        rcases key _ _ _ h with h | ⟨c, hc, h⟩
        · rcases h with rfl | rfl | rfl | rfl | rfl <;> exact hnil
        · simp at hc
    · rcases key _ _ _ h with h | ⟨c, hc, h⟩
      · rcases h with rfl | rfl | rfl | rfl | rfl <;> exact hnil
      · simp at hc

end Quickly.Text
