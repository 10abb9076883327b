import Verif.Layout.Spec
import Verif.Indent.Props
import Mathlib.Data.List.Forall2
import Mathlib.Tactic.ByContra

/-!
# C73: elements that ask for whitespace
-/

namespace Quickly.Layout

open Quickly.Node Quickly.Text Quickly.Text.Spec Quickly.Indent Quickly.Indent.Spec

/-! ## Lemmas -/

/-- The wishes that are pending after a stream. -/
def pend (ws : List Str) : List Item → List Str
  | [] => ws
  | .wish w :: is => pend (ws ++ [w]) is
  | .text _ :: is => pend [] is

theorem render_append (ws : List Str) (as bs : List Item) : render ws (as ++ bs) = render ws as ++ render (pend ws as) bs := by
  induction as generalizing ws with
  | nil => simp [render, pend]
  | cons i as ih =>
    cases i with
    | wish w => simp only [List.cons_append, render, pend]; exact ih _
    | text x => simp only [List.cons_append, render, pend]; rw [ih]; simp

theorem render_first (ws : List Str) (is : List Item) (h : itemTexts is ≠ []) :
    ∃ ms B, render ws is = collapse (ws ++ ms) ++ B ∧ ∀ m ∈ ms, .wish m ∈ is := by
  induction is generalizing ws with
  | nil => exact absurd rfl h
  | cons i is ih =>
    cases i with
    | wish w =>
      obtain ⟨ms, B, h1, h2⟩ := ih (ws ++ [w]) h
      refine ⟨w :: ms, B, ?_, ?_⟩
      · rw [render, h1]; simp
      · intro m hm
        simp only [List.mem_cons] at hm
        rcases hm with rfl | hm
        · simp
        · simp [h2 m hm]
    | text x => exact ⟨[], x ++ render [] is, by simp [render], by simp⟩

theorem pend_mem (ws : List Str) (is : List Item) : ∀ w ∈ pend ws is, w ∈ ws ∨ .wish w ∈ is := by
  induction is generalizing ws with
  | nil => intro w hw; exact .inl hw
  | cons i is ih =>
    intro w hw
    cases i with
    | wish v =>
      rcases ih _ w hw with h | h
      · simp only [List.mem_append, List.mem_singleton] at h
        rcases h with h | rfl
        · exact .inl h
        · exact .inr (by simp)
      · exact .inr (by simp [h])
    | text x =>
      rcases ih _ w hw with h | h
      · simp at h
      · exact .inr (by simp [h])

theorem go_append (as bs : List (Node.Tree Elem)) : texts.go (as ++ bs) = texts.go as ++ texts.go bs := by
  induction as with
  | nil => rfl
  | cons a as ih => rw [List.cons_append, texts.go, texts.go, ih, List.append_assoc]

theorem kids_split (cc : Concat) (e : Elem) (prev : Option (Node.Tree Elem)) (as : List (Node.Tree Elem)) (c : Node.Tree Elem)
    (bs : List (Node.Tree Elem)) :
    ∃ X, stream.kids cc e prev (as ++ c :: bs) = X ++ stream cc c ++ stream.kids cc e (some c) bs ∧ itemTexts X = texts.go as := by
  induction as generalizing prev with
  | nil => exact ⟨between cc e prev c, by simp [stream.kids], itemTexts_between cc e prev c⟩
  | cons a as ih =>
    obtain ⟨X, h1, h2⟩ := ih (some a)
    refine ⟨between cc e prev a ++ stream cc a ++ X, ?_, ?_⟩
    · rw [List.cons_append, stream.kids, h1]; simp
    · rw [itemTexts_append, itemTexts_append, itemTexts_between, stream_texts, h2]; rfl

theorem headItems_texts (e : Elem) (b : Bool) : itemTexts (headItems e b) = if e.kind = .plain then [] else some? e.head := by
  simp only [headItems, itemTexts_append, itemTexts, List.nil_append, some?]
  by_cases h1 : e.kind = .plain
  · simp [h1, itemTexts]
  · by_cases h2 : e.head = []
    · simp [h1, h2, itemTexts]
    · simp only [h1, h2, not_false_eq_true, and_self, if_true, if_false, itemTexts, ne_eq]
      split <;> rfl

theorem tailItems_texts (e : Elem) : itemTexts (tailItems e) = if e.kind = .block then some? e.tail else [] := by
  simp only [tailItems, itemTexts_append, itemTexts, List.append_nil, some?, Elem.hasTail]
  by_cases h1 : e.kind = .block
  · by_cases h2 : e.tail = []
    · simp [h1, h2, itemTexts]
    · simp [h1, h2, itemTexts]
  · have : (e.kind == Kind.block) = false := by simpa using h1
    simp [h1, itemTexts]

/-- The stream of a tree around a node. -/
theorem stream_at (cc : Concat) (p : Path) (t u : Node.Tree Elem) (h : t.get? p = some u) :
    ∃ L R, stream cc t = L ++ stream cc u ++ R ∧ itemTexts L = textsLeft t p ∧ itemTexts R = textsRight t p := by
  induction p generalizing t with
  | nil =>
    simp only [Tree.get?, Option.some.injEq] at h
    subst h
    exact ⟨[], [], by simp, by cases t; rfl, by cases t; rfl⟩
  | cons i p ih =>
    obtain ⟨e, cs⟩ := t
    simp only [Tree.get?, Tree.children] at h
    cases hc : cs[i]? with
    | none => rw [hc] at h; simp at h
    | some c =>
      rw [hc] at h
      obtain ⟨L, R, h1, h2, h3⟩ := ih c h
      have hi : i < cs.length := (List.getElem?_eq_some_iff.mp hc).1
      have hs : cs = cs.take i ++ c :: cs.drop (i + 1) := by
        have h4 : cs[i] = c := (List.getElem?_eq_some_iff.mp hc).2
        rw [← h4, List.getElem_cons_drop, List.take_append_drop]
      obtain ⟨X, k1, k2⟩ := kids_split cc e none (cs.take i) c (cs.drop (i + 1))
      rw [← hs] at k1
      refine ⟨headItems e (!cs.isEmpty) ++ X ++ L, R ++ stream.kids cc e (some c) (cs.drop (i + 1)) ++ tailItems e, ?_, ?_, ?_⟩
      · rw [stream_eq, k1, h1]; simp
      · rw [itemTexts_append, itemTexts_append, headItems_texts, k2, h2, textsLeft, hc]
      · rw [itemTexts_append, itemTexts_append, h3, Indent.kids_texts, tailItems_texts, textsRight, hc]

/-- A wish in the stream of which there are visible texts before and texts after it. -/
theorem wish_met (isSpace : Char → Bool) (is L R : List Item) (w : Str) (h : is = L ++ .wish w :: R)
    (hw : ∀ w, .wish w ∈ is → ∀ c ∈ w, isSpace c = true) (hr : itemTexts R ≠ []) (lead body : Str) (hl : ∀ c ∈ lead, isSpace c = true)
    (hb : render [] is = lead ++ body) (hv : visible isSpace (itemTexts L).flatten ≠ []) :
    ∃ A g B, body = A ++ g ++ B ∧ AtMost w g ∧ (∀ c ∈ g, isSpace c = true) ∧
      visible isSpace A = visible isSpace (itemTexts L).flatten ∧ visible isSpace B = visible isSpace (itemTexts R).flatten := by
  have hwL : ∀ w, .wish w ∈ L → ∀ c ∈ w, isSpace c = true := fun w hm => hw w (by rw [h]; simp [hm])
  have hwR : ∀ w, .wish w ∈ R → ∀ c ∈ w, isSpace c = true := fun w hm => hw w (by rw [h]; simp [hm])
  have hww : ∀ c ∈ w, isSpace c = true := hw w (by rw [h]; simp)
  obtain ⟨ms, B, h1, h2⟩ := render_first (pend [] L ++ [w]) R hr
  have e : lead ++ body = render [] L ++ (collapse (pend [] L ++ [w] ++ ms) ++ B) := by
    rw [← hb, h, render_append, render, h1]
  have hA : visible isSpace (render [] L) = visible isSpace (itemTexts L).flatten := visible_render isSpace L hwL [] (by simp)
  have hpend : ∀ v ∈ pend [] L ++ [w] ++ ms, ∀ c ∈ v, isSpace c = true := by
    intro v hv'
    simp only [List.mem_append, List.mem_singleton] at hv'
    rcases hv' with (hv' | rfl) | hv'
    · rcases pend_mem [] L v hv' with h0 | h0
      · simp at h0
      · exact hwL v h0
    · exact hww
    · exact hwR v (h2 v hv')
  have hg : ∀ c ∈ collapse (pend [] L ++ [w] ++ ms), isSpace c = true := hpend _ (collapse_mem (by simp))
  have hB : visible isSpace B = visible isSpace (itemTexts R).flatten := by
    have h3 := visible_render isSpace R hwR (pend [] L ++ [w]) (fun v hv' => hpend v (by
      simp only [List.mem_append, List.mem_singleton] at hv' ⊢; exact .inl hv'))
    rw [h1, visible_append, visible_space isSpace _ hg] at h3
    exact h3
  -- the lead is part of the first half
  have hlen : lead.length ≤ (render [] L).length := by
    by_contra hlt
    have hpre : render [] L <+: lead := by
      refine List.prefix_of_prefix_length_le (l₃ := lead ++ body) ?_ (List.prefix_append _ _) (by omega)
      rw [e]; exact List.prefix_append _ _
    have : visible isSpace (render [] L) = [] := visible_space isSpace _ fun c hc => hl c (hpre.subset hc)
    rw [hA] at this
    exact hv this
  have hpre : lead <+: render [] L := by
    refine List.prefix_of_prefix_length_le (l₃ := lead ++ body) (List.prefix_append _ _) ?_ hlen
    rw [e]; exact List.prefix_append _ _
  obtain ⟨A, hA'⟩ := hpre
  refine ⟨A, collapse (pend [] L ++ [w] ++ ms), B, ?_, collapse_max (by simp), hg, ?_, hB⟩
  · rw [← hA', List.append_assoc] at e
    rw [List.append_cancel_left e]; simp
  · rw [← hA, ← hA', visible_append, visible_space isSpace lead hl]; rfl

/-! ## The property -/

/-- **C73**, `write_indented()`: what any element asks for before it is there, between the texts before it and its own and those after
it. -/
theorem C73_before (isSpace : Char → Bool) (hn : isSpace '\n' = true) (cc : Concat) (cfg : Config) (t : Node.Tree Elem) (out : Str)
    (h : writeIndented isSpace cc cfg t = .ok out) (hw : wishesAreSpace isSpace cc t) (p : Path) (u : Node.Tree Elem)
    (hu : t.get? p = some u) (hl : visible isSpace (textsLeft t p).flatten ≠ []) (hr : texts u ++ textsRight t p ≠ []) :
    ∃ lines : List (ℕ × Str), out = (lines.flatMap fun l => List.replicate l.1 ' ' ++ l.2 ++ ['\n']) ∧
      ∃ A g B, joinLines (lines.map Prod.snd) = A ++ g ++ B ∧ AtMost u.val.sp.before g ∧ (∀ c ∈ g, isSpace c = true) ∧
        visible isSpace A = visible isSpace (textsLeft t p).flatten ∧
        visible isSpace B = visible isSpace (texts u ++ textsRight t p).flatten := by
  obtain ⟨lines, h1, lead, h2, h3⟩ := C42_lines isSpace hn cc cfg t out h
  obtain ⟨L, R, k1, k2, k3⟩ := stream_at cc p t u hu
  obtain ⟨e, cs⟩ := u
  refine ⟨lines, h1, ?_⟩
  have hs : ∃ S, stream cc (.node e cs) = .wish e.sp.before :: S := ⟨_, rfl⟩
  obtain ⟨S, hs⟩ := hs
  have ht : itemTexts (S ++ R) = texts (.node e cs) ++ textsRight t p := by
    rw [itemTexts_append, k3, ← stream_texts cc, hs]; rfl
  have := wish_met isSpace (stream cc t) L (S ++ R) e.sp.before (by rw [k1, hs]; simp)
    (fun w hm => hw w (stream_wish cc t w hm)) (by rw [ht]; exact hr) lead _ h2 h3 (by rw [k2]; exact hl)
  rw [k2, ht] at this
  exact this

/-- **C73**, `write_indented()`: what any element asks for after it is there, between the texts before it and its own and those after
it. So a `Newline` gives a newline. -/
theorem C73_after (isSpace : Char → Bool) (hn : isSpace '\n' = true) (cc : Concat) (cfg : Config) (t : Node.Tree Elem) (out : Str)
    (h : writeIndented isSpace cc cfg t = .ok out) (hw : wishesAreSpace isSpace cc t) (p : Path) (u : Node.Tree Elem)
    (hu : t.get? p = some u) (hl : visible isSpace (textsLeft t p ++ texts u).flatten ≠ []) (hr : textsRight t p ≠ []) :
    ∃ lines : List (ℕ × Str), out = (lines.flatMap fun l => List.replicate l.1 ' ' ++ l.2 ++ ['\n']) ∧
      ∃ A g B, joinLines (lines.map Prod.snd) = A ++ g ++ B ∧ AtMost u.val.sp.after g ∧ (∀ c ∈ g, isSpace c = true) ∧
        visible isSpace A = visible isSpace (textsLeft t p ++ texts u).flatten ∧
        visible isSpace B = visible isSpace (textsRight t p).flatten := by
  obtain ⟨lines, h1, lead, h2, h3⟩ := C42_lines isSpace hn cc cfg t out h
  obtain ⟨L, R, k1, k2, k3⟩ := stream_at cc p t u hu
  obtain ⟨e, cs⟩ := u
  refine ⟨lines, h1, ?_⟩
  have hs : ∃ S, stream cc (.node e cs) = S ++ [.wish e.sp.after] := ⟨_, rfl⟩
  obtain ⟨S, hs⟩ := hs
  have ht : itemTexts (L ++ S) = textsLeft t p ++ texts (.node e cs) := by
    rw [itemTexts_append, k2, ← stream_texts cc, hs, itemTexts_append]; simp [itemTexts]
  have := wish_met isSpace (stream cc t) (L ++ S) R e.sp.after (by rw [k1, hs]; simp)
    (fun w hm => hw w (stream_wish cc t w hm)) (by rw [k3]; exact hr) lead _ h2 h3 (by rw [ht]; exact hl)
  rw [k3, ht] at this
  exact this

/-- **C73**, `write_indented()`: the space that an element asks for between two of its children is there. -/
theorem C73_between (isSpace : Char → Bool) (hn : isSpace '\n' = true) (cc : Concat) (cfg : Config) (t : Node.Tree Elem) (out : Str)
    (h : writeIndented isSpace cc cfg t = .ok out) (hw : wishesAreSpace isSpace cc t) (p : Path) (e : Elem)
    (as bs : List (Node.Tree Elem)) (c d : Node.Tree Elem) (hu : t.get? p = some (.node e (as ++ c :: d :: bs)))
    (hl : visible isSpace (textsLeft t (p ++ [as.length + 1])).flatten ≠ [])
    (hr : texts d ++ textsRight t (p ++ [as.length + 1]) ≠ []) :
    ∃ lines : List (ℕ × Str), out = (lines.flatMap fun l => List.replicate l.1 ' ' ++ l.2 ++ ['\n']) ∧
      ∃ A g B, joinLines (lines.map Prod.snd) = A ++ g ++ B ∧ AtMost (cc e c d) g ∧ (∀ c ∈ g, isSpace c = true) ∧
        visible isSpace A = visible isSpace (textsLeft t (p ++ [as.length + 1])).flatten ∧
        visible isSpace B = visible isSpace (texts d ++ textsRight t (p ++ [as.length + 1])).flatten := by
  obtain ⟨lines, h1, lead, h2, h3⟩ := C42_lines isSpace hn cc cfg t out h
  have left_app : ∀ (p : Path) (t u : Node.Tree Elem) (q : Path), t.get? p = some u →
      textsLeft t (p ++ q) = textsLeft t p ++ textsLeft u q ∧ textsRight t (p ++ q) = textsRight u q ++ textsRight t p := by
    intro p
    induction p with
    | nil =>
      intro t u q h
      simp only [Tree.get?, Option.some.injEq] at h
      subst h
      cases t with | node e cs => simp [textsLeft, textsRight]
    | cons i p ih =>
      intro t u q h
      cases t with
      | node e cs =>
        simp only [Tree.get?, Tree.children] at h
        cases hc : cs[i]? with
        | none => rw [hc] at h; simp at h
        | some c =>
          rw [hc] at h
          obtain ⟨k1, k2⟩ := ih c u q h
          simp only [List.cons_append, textsLeft, textsRight, hc, k1, k2]
          simp
  obtain ⟨L, R, k1, k2, k3⟩ := stream_at cc p t _ hu
  obtain ⟨l1, l2⟩ := left_app p t _ [as.length + 1] hu
  have hget : (as ++ c :: d :: bs)[as.length + 1]? = some d := by
    rw [List.getElem?_append_right (by omega)]; simp
  have htake : (as ++ c :: d :: bs).take (as.length + 1) = as ++ [c] := by
    rw [List.take_append]; simp [List.take_of_length_le]
  have hdrop : (as ++ c :: d :: bs).drop (as.length + 1 + 1) = bs := by
    rw [show as ++ c :: d :: bs = (as ++ [c, d]) ++ bs by simp, List.drop_left' (by simp)]
  simp only [textsLeft, hget, htake] at l1
  simp only [textsRight, hget, hdrop] at l2
  refine ⟨lines, h1, ?_⟩
  obtain ⟨X, x1, x2⟩ := kids_split cc e none as c (d :: bs)
  have hst : stream cc t = (L ++ headItems e (!(as ++ c :: d :: bs).isEmpty) ++ X ++ stream cc c) ++
      .wish (cc e c d) :: (stream cc d ++ stream.kids cc e (some d) bs ++ tailItems e ++ R) := by
    rw [k1, stream_eq, x1, stream.kids, between]; simp
  have hL : itemTexts (L ++ headItems e (!(as ++ c :: d :: bs).isEmpty) ++ X ++ stream cc c) =
      textsLeft t (p ++ [as.length + 1]) := by
    rw [itemTexts_append, itemTexts_append, itemTexts_append, headItems_texts, x2, stream_texts, k2, l1, go_append]
    simp [texts.go]
  have hR : itemTexts (stream cc d ++ stream.kids cc e (some d) bs ++ tailItems e ++ R) =
      texts d ++ textsRight t (p ++ [as.length + 1]) := by
    rw [itemTexts_append, itemTexts_append, itemTexts_append, stream_texts, Indent.kids_texts, tailItems_texts, k3, l2]
    simp
  have := wish_met isSpace (stream cc t) _ _ (cc e c d) hst
    (fun w hm => hw w (stream_wish cc t w hm)) (by rw [hR]; exact hr) lead _ h2 h3 (by rw [hL]; exact hl)
  rw [hL, hR] at this
  exact this

/-! ## `write()` -/

/-- The items of fragments. -/
def fitems : List Frag → List Item
  | [] => []
  | f :: fs => .wish f.before :: ((if f.text = [] then [] else [.text f.text]) ++ .wish f.after :: fitems fs)

theorem combineLoop_render (result ws : List Str) (fs : List Frag) :
    (combineLoop result ws fs).1.flatten = result.flatten ++ render ws (fitems fs) := by
  induction fs generalizing result ws with
  | nil => simp [combineLoop, fitems, render]
  | cons f fs ih =>
    rw [combineLoop]
    by_cases h : f.text = []
    · rw [if_pos h, ih]
      simp [fitems, h, render]
    · rw [if_neg h, ih]
      simp [fitems, h, render]

theorem combine_render (fs : List Frag) : (combine fs).before ++ (combine fs).text = render [] (fitems fs) := by
  have h := combineLoop_render [] [] fs
  simp only [List.flatten_nil, List.nil_append] at h
  rw [← h]
  unfold combine
  simp only
  rw [← List.flatten_append, List.take_append_drop]

theorem combineLoop_first (result ws : List Str) (fs : List Frag) (P : Str → Prop) (h0 : P [])
    (hr : ∀ x ∈ result.head?, P x) (hw : ∀ w ∈ ws, P w) (hf : ∀ f ∈ fs, P f.before ∧ P f.after) :
    ∀ x ∈ (combineLoop result ws fs).1.head?, P x := by
  induction fs generalizing result ws with
  | nil => exact hr
  | cons f fs ih =>
    have hf1 := hf f (by simp)
    have hf2 : ∀ g ∈ fs, P g.before ∧ P g.after := fun g hg => hf g (by simp [hg])
    rw [combineLoop]
    split
    · refine ih _ _ hr ?_ hf2
      intro w hw'
      simp only [List.mem_append, List.mem_singleton] at hw'
      rcases hw' with (h | rfl) | rfl
      · exact hw w h
      · exact hf1.1
      · exact hf1.2
    · refine ih _ _ ?_ (by simpa using hf1.2) hf2
      intro x hx
      cases result with
      | nil =>
        simp only [List.nil_append, List.singleton_append, List.head?_cons, Option.mem_def, Option.some.injEq] at hx
        subst hx
        have := collapse_mem (xs := ws ++ [f.before]) (by simp)
        simp only [List.mem_append, List.mem_singleton] at this
        rcases this with h | h
        · exact hw _ h
        · rw [h]; exact hf1.1
      | cons y ys => exact hr x hx

theorem combine_before (fs : List Frag) (P : Str → Prop) (h0 : P []) (hf : ∀ f ∈ fs, P f.before ∧ P f.after) : P (combine fs).before := by
  have h := combineLoop_first [] [] fs P h0 (by simp) (by simp) hf
  unfold combine
  simp only
  cases hc : (combineLoop [] [] fs).1 with
  | nil => simpa using h0
  | cons x xs => rw [hc] at h; simpa using h x rfl

theorem fitems_append (as bs : List Frag) : fitems (as ++ bs) = fitems as ++ fitems bs := by
  induction as with
  | nil => rfl
  | cons f fs ih => simp [fitems, ih]

theorem fitems_wish (fs : List Frag) (w : Str) (h : .wish w ∈ fitems fs) : ∃ f ∈ fs, w = f.before ∨ w = f.after := by
  induction fs with
  | nil => simp [fitems] at h
  | cons f fs ih =>
    rw [fitems, List.mem_cons, List.mem_append, List.mem_cons] at h
    rcases h with h | h | h | h
    · exact ⟨f, by simp, .inl (Item.wish.inj h)⟩
    · split at h <;> simp at h
    · exact ⟨f, by simp, .inr (Item.wish.inj h)⟩
    · obtain ⟨g, h1, h2⟩ := ih h
      exact ⟨g, by simp [h1], h2⟩

theorem fitems_texts (fs : List Frag) : itemTexts (fitems fs) = (fs.map Frag.text).filter (· ≠ []) := by
  induction fs with
  | nil => rfl
  | cons f fs ih =>
    rw [fitems, itemTexts, itemTexts_append, itemTexts, ih, List.map_cons]
    by_cases h : f.text = []
    · simp [h, itemTexts]
    · simp [h, itemTexts]

/-- Points with the same texts and the same wishes, but for those after them that may be more important. -/
def Up (a b : Point) : Prop := b.text = a.text ∧ b.before = a.before ∧ AtMost a.after b.after

theorem up_refl (ps : List Point) : List.Forall₂ Up ps ps := by
  induction ps with
  | nil => exact .nil
  | cons p ps ih => exact .cons ⟨rfl, rfl, atMost_refl _⟩ ih

theorem up_trans {as bs cs : List Point} (h : List.Forall₂ Up as bs) (k : List.Forall₂ Up bs cs) : List.Forall₂ Up as cs := by
  induction h generalizing cs with
  | nil => cases k; exact .nil
  | cons h1 _ ih =>
    cases k with
    | cons k1 k2 => exact .cons ⟨k1.1.trans h1.1, k1.2.1.trans h1.2.1, atMost_trans h1.2.2 k1.2.2⟩ (ih k2)

theorem up_collapseLast (ps : List Point) (w : Str) : List.Forall₂ Up ps (collapseLast ps w) := by
  induction ps with
  | nil => exact .nil
  | cons p ps ih =>
    cases ps with
    | nil => exact .cons ⟨rfl, rfl, collapse_max (xs := [p.after, w]) (x := p.after) (by simp)⟩ .nil
    | cons q qs => exact .cons ⟨rfl, rfl, atMost_refl _⟩ ih

theorem up_split {as bs cs : List Point} (h : List.Forall₂ Up (as ++ bs) cs) :
    ∃ as' bs', cs = as' ++ bs' ∧ List.Forall₂ Up as as' ∧ List.Forall₂ Up bs bs' := by
  induction as generalizing cs with
  | nil => exact ⟨[], cs, rfl, .nil, h⟩
  | cons a as ih =>
    cases h with
    | cons h1 h2 =>
      obtain ⟨as', bs', e, k1, k2⟩ := ih h2
      exact ⟨_ :: as', bs', by rw [e]; rfl, .cons h1 k1, k2⟩

/-- The texts of points that are not empty. -/
def ptexts (ps : List Point) : List Str := (ps.map Point.text).filter (· ≠ [])

theorem ptexts_append (as bs : List Point) : ptexts (as ++ bs) = ptexts as ++ ptexts bs := by
  simp [ptexts]

theorem up_texts {as bs : List Point} (h : List.Forall₂ Up as bs) : ptexts bs = ptexts as := by
  have : bs.map Point.text = as.map Point.text := by
    induction h with
    | nil => rfl
    | cons h1 _ ih => rw [List.map_cons, List.map_cons, ih, h1.1]
  rw [ptexts, this]; rfl

theorem kids_points_split (cc : Concat) (e : Elem) (as : List (Node.Tree Elem)) (c : Node.Tree Elem) (bs : List (Node.Tree Elem)) :
    ∃ X P, points.kids cc e (as ++ c :: bs) = X ++ P ++ points.kids cc e bs ∧ ptexts X = texts.go as ∧
      List.Forall₂ Up (points cc c) P := by
  induction as with
  | nil =>
    cases bs with
    | cons m ms => exact ⟨[], collapseLast (points cc c) (cc e c m), by simp [points.kids], rfl, up_collapseLast _ _⟩
    | nil =>
      by_cases ht : (tailPoint e).isSome
      · exact ⟨[], points cc c, by simp [points.kids, ht], rfl, up_refl _⟩
      · exact ⟨[], collapseLast (points cc c) e.sp.after, by simp [points.kids, ht], rfl, up_collapseLast _ _⟩
  | cons a as ih =>
    obtain ⟨X, P, h1, h2, h3⟩ := ih
    have hne : ∃ m ms, as ++ c :: bs = m :: ms := by
      cases as with
      | nil => exact ⟨_, _, rfl⟩
      | cons x xs => exact ⟨_, _, rfl⟩
    obtain ⟨m, ms, hm⟩ := hne
    refine ⟨collapseLast (points cc a) (cc e a m) ++ X, P, ?_, ?_, h3⟩
    · simp only [List.cons_append, points.kids]
      rw [h1, hm]
      simp
    · rw [ptexts_append, h2, up_texts (up_collapseLast _ _)]
      have : ptexts (points cc a) = texts a := points_texts cc a
      rw [this]; rfl

theorem points_at (cc : Concat) (p : Path) (t u : Node.Tree Elem) (h : t.get? p = some u) :
    ∃ L P R, points cc t = L ++ P ++ R ∧ List.Forall₂ Up (points cc u) P ∧ ptexts L = textsLeft t p ∧ ptexts R = textsRight t p := by
  induction p generalizing t with
  | nil =>
    simp only [Tree.get?, Option.some.injEq] at h
    subst h
    exact ⟨[], _, [], by simp, up_refl _, by cases t; rfl, by cases t; rfl⟩
  | cons i p ih =>
    obtain ⟨e, cs⟩ := t
    simp only [Tree.get?, Tree.children] at h
    cases hc : cs[i]? with
    | none => rw [hc] at h; simp at h
    | some c =>
      rw [hc] at h
      obtain ⟨L, P, R, h1, h2, h3, h4⟩ := ih c h
      have hi : i < cs.length := (List.getElem?_eq_some_iff.mp hc).1
      have hs : cs = cs.take i ++ c :: cs.drop (i + 1) := by
        have h4 : cs[i] = c := (List.getElem?_eq_some_iff.mp hc).2
        rw [← h4, List.getElem_cons_drop, List.take_append_drop]
      obtain ⟨X, Q, k1, k2, k3⟩ := kids_points_split cc e (cs.take i) c (cs.drop (i + 1))
      rw [← hs] at k1
      rw [h1] at k3
      obtain ⟨LP, R', e1, u1, u2⟩ := up_split k3
      obtain ⟨L', P', e2, u3, u4⟩ := up_split u1
      refine ⟨(headPoint e cs.length).toList ++ X ++ L', P', R' ++ points.kids cc e (cs.drop (i + 1)) ++ (tailPoint e).toList, ?_,
        up_trans h2 u4, ?_, ?_⟩
      · rw [points, k1, e1, e2]; simp
      · rw [ptexts_append, ptexts_append, k2, up_texts u3, h3, textsLeft, hc]
        simp only
        congr 2
        unfold headPoint ptexts some?
        by_cases h1 : e.kind = .plain
        · simp [h1]
        · by_cases h2 : e.head = [] <;> simp [h1, h2]
      · rw [ptexts_append, ptexts_append, up_texts u2, h4, textsRight, hc]
        simp only
        congr 1
        · congr 1
          exact Text.kids_texts cc e _
        · unfold tailPoint ptexts some?
          by_cases h1 : e.kind = .block
          · by_cases h2 : e.tail = [] <;> simp [h1, h2]
          · simp [h1]

/-- A wish of a point is met in what is written. -/
theorem point_met (isSpace : Char → Bool) (cc : Concat) (t : Node.Tree Elem) (hw : wishesAreSpace isSpace cc t)
    (is L R : List Item) (w : Str) (h : is = L ++ .wish w :: R) (his : is = fitems ((points cc t).map Point.frag))
    (hl : visible isSpace (itemTexts L).flatten ≠ []) (hr : itemTexts R ≠ []) :
    ∃ A g B, write cc t = A ++ g ++ B ∧ AtMost w g ∧ (∀ c ∈ g, isSpace c = true) ∧
      visible isSpace A = visible isSpace (itemTexts L).flatten ∧ visible isSpace B = visible isSpace (itemTexts R).flatten := by
  have hsp : ∀ f ∈ (points cc t).map Point.frag, (∀ c ∈ f.before, isSpace c = true) ∧ ∀ c ∈ f.after, isSpace c = true := by
    intro f hf
    have := frags_wish cc t f hf
    exact ⟨hw _ this.1, hw _ this.2⟩
  refine wish_met isSpace is L R w h ?_ hr (combine ((points cc t).map Point.frag)).before _ ?_ ?_ hl
  · intro v hv
    rw [his] at hv
    obtain ⟨f, h1, h2⟩ := fitems_wish _ _ hv
    rcases h2 with rfl | rfl
    · exact (hsp f h1).1
    · exact (hsp f h1).2
  · exact combine_before _ (fun s => ∀ c ∈ s, isSpace c = true) (by simp) hsp
  · rw [his, ← combine_render]; rfl

theorem itemTexts_points (ps : List Point) : itemTexts (fitems (ps.map Point.frag)) = ptexts ps := by
  rw [fitems_texts, ptexts, List.map_map]; rfl

/-- **C73**, `write()`, only for elements with a text of their own (see below): what an element asks for before it is there. -/
theorem C73_write_before_partial (isSpace : Char → Bool) (cc : Concat) (t : Node.Tree Elem) (hw : wishesAreSpace isSpace cc t)
    (p : Path) (e : Elem) (cs : List (Node.Tree Elem)) (hu : t.get? p = some (.node e cs)) (hk : e.kind ≠ .plain)
    (hl : visible isSpace (textsLeft t p).flatten ≠ []) (hr : texts (.node e cs) ++ textsRight t p ≠ []) :
    ∃ A g B, write cc t = A ++ g ++ B ∧ AtMost e.sp.before g ∧ (∀ c ∈ g, isSpace c = true) ∧
      visible isSpace A = visible isSpace (textsLeft t p).flatten ∧
      visible isSpace B = visible isSpace (texts (.node e cs) ++ textsRight t p).flatten := by
  obtain ⟨L, P, R, h1, h2, h3, h4⟩ := points_at cc p t _ hu
  have hP := up_texts h2
  rw [show ptexts (points cc (.node e cs)) = texts (.node e cs) from points_texts cc _] at hP
  have hhd : ∃ q qs, P = q :: qs ∧ q.before = e.sp.before := by
    rw [points] at h2
    unfold headPoint at h2
    simp only [hk, if_false, Option.toList_some, List.cons_append] at h2
    cases h2 with
    | cons k1 k2 => exact ⟨_, _, rfl, k1.2.1⟩
  obtain ⟨q, qs, rfl, hq⟩ := hhd
  have hLt : itemTexts (fitems (L.map Point.frag)) = textsLeft t p := by rw [itemTexts_points, h3]
  obtain ⟨S, hS⟩ : ∃ S, fitems ((q :: qs).map Point.frag) = .wish q.before :: S := ⟨_, rfl⟩
  have hRt : itemTexts (S ++ fitems (R.map Point.frag)) = texts (.node e cs) ++ textsRight t p := by
    rw [itemTexts_append, itemTexts_points, h4, ← hP, ← itemTexts_points, hS]; rfl
  have := point_met isSpace cc t hw _ (fitems (L.map Point.frag)) (S ++ fitems (R.map Point.frag)) e.sp.before
    (by rw [h1, List.map_append, List.map_append, fitems_append, fitems_append, hS, ← hq]; simp) rfl
    (by rw [hLt]; exact hl) (by rw [hRt]; exact hr)
  rw [hLt, hRt] at this
  exact this

/-- The element has a tail, or a head and no children, or its last child has a text or a child with a text. -/
def Ends (e : Elem) (cs : List (Node.Tree Elem)) : Prop :=
  e.kind = .block ∨ (e.kind = .head ∧ cs = []) ∨ ∃ c ∈ cs.getLast?, hasPoint c = true

theorem points_ne (cc : Concat) (t : Node.Tree Elem) (h : hasPoint t = true) : points cc t ≠ [] :=
  (hasPoint_iff cc t).mp h

theorem collapseLast_last (ps : List Point) (w : Str) (h : ps ≠ []) : ∃ X q, collapseLast ps w = X ++ [q] ∧ AtMost w q.after := by
  induction ps with
  | nil => exact absurd rfl h
  | cons p ps ih =>
    cases ps with
    | nil => exact ⟨[], _, rfl, collapse_max (xs := [p.after, w]) (x := w) (by simp)⟩
    | cons q qs =>
      obtain ⟨X, r, h1, h2⟩ := ih (by simp)
      exact ⟨p :: X, r, by rw [collapseLast, h1]; rfl, h2⟩

theorem points_last (cc : Concat) (e : Elem) (cs : List (Node.Tree Elem)) (h : Ends e cs) :
    ∃ X q, points cc (.node e cs) = X ++ [q] ∧ AtMost e.sp.after q.after := by
  rw [points]
  by_cases hb : e.kind = .block
  · refine ⟨_, _, by rw [tailPoint, if_pos hb]; rfl, atMost_refl _⟩
  · have ht : tailPoint e = none := by rw [tailPoint, if_neg hb]
    rw [ht]
    rcases h with h | ⟨h1, rfl⟩ | ⟨c, hc, hp⟩
    · exact absurd h hb
    · refine ⟨[], _, by simp [headPoint, h1, points.kids, Elem.hasTail]; rfl, atMost_refl _⟩
    · have key : ∀ cs : List (Node.Tree Elem), c ∈ cs.getLast? → ∃ X q, points.kids cc e cs = X ++ [q] ∧ AtMost e.sp.after q.after := by
        intro cs
        induction cs with
        | nil => intro h; simp at h
        | cons n ns ih =>
          intro hl
          cases ns with
          | nil =>
            simp only [List.getLast?_singleton, Option.mem_def, Option.some.injEq] at hl
            subst hl
            simp only [points.kids, ht, Option.isSome_none, Bool.false_eq_true, if_false, List.append_nil]
            exact collapseLast_last _ _ (points_ne cc n hp)
          | cons m ms =>
            rw [List.getLast?_cons_cons] at hl
            obtain ⟨X, q, h1, h2⟩ := ih hl
            exact ⟨_ ++ X, q, by rw [points.kids, h1, List.append_assoc], h2⟩
      obtain ⟨X, q, h1, h2⟩ := key cs hc
      exact ⟨(headPoint e cs.length).toList ++ X, q, by rw [h1]; simp, h2⟩

/-- **C73**, `write()`, only for elements that end with a text, possibly an empty one (see below): what an element asks for after it is
there. -/
theorem C73_write_after_partial (isSpace : Char → Bool) (cc : Concat) (t : Node.Tree Elem) (hw : wishesAreSpace isSpace cc t)
    (p : Path) (e : Elem) (cs : List (Node.Tree Elem)) (hu : t.get? p = some (.node e cs)) (hk : Ends e cs)
    (hl : visible isSpace (textsLeft t p ++ texts (.node e cs)).flatten ≠ []) (hr : textsRight t p ≠ []) :
    ∃ A g B, write cc t = A ++ g ++ B ∧ AtMost e.sp.after g ∧ (∀ c ∈ g, isSpace c = true) ∧
      visible isSpace A = visible isSpace (textsLeft t p ++ texts (.node e cs)).flatten ∧
      visible isSpace B = visible isSpace (textsRight t p).flatten := by
  obtain ⟨L, P, R, h1, h2, h3, h4⟩ := points_at cc p t _ hu
  have hP := up_texts h2
  rw [show ptexts (points cc (.node e cs)) = texts (.node e cs) from points_texts cc _] at hP
  obtain ⟨X, q, k1, k2⟩ := points_last cc e cs hk
  rw [k1] at h2
  obtain ⟨X', Q', rfl, u1, u2⟩ := up_split h2
  cases u2 with
  | cons u3 u4 =>
    cases u4
    rename_i q'
    have hRt : itemTexts (fitems (R.map Point.frag)) = textsRight t p := by rw [itemTexts_points, h4]
    obtain ⟨S, hS⟩ : ∃ S, fitems ((X' ++ [q']).map Point.frag) = S ++ [.wish q'.after] := by
      rw [List.map_append, fitems_append]
      exact ⟨fitems (X'.map Point.frag) ++ (.wish q'.before :: (if q'.text = [] then [] else [.text q'.text])),
        by simp [fitems, Point.frag]⟩
    have hLt : itemTexts (fitems (L.map Point.frag) ++ S) = textsLeft t p ++ texts (.node e cs) := by
      rw [itemTexts_append, itemTexts_points, h3, ← hP, ← itemTexts_points, hS, itemTexts_append]
      simp [itemTexts]
    obtain ⟨A, g, B, r1, r2, r3, r4, r5⟩ := point_met isSpace cc t hw _ (fitems (L.map Point.frag) ++ S) (fitems (R.map Point.frag)) q'.after
      (by rw [h1, List.map_append, List.map_append, fitems_append, fitems_append, hS]; simp) rfl
      (by rw [hLt]; exact hl) (by rw [hRt]; exact hr)
    rw [hLt] at r4
    rw [hRt] at r5
    exact ⟨A, g, B, r1, atMost_trans (atMost_trans k2 u3.2.2) r2, r3, r4, r5⟩

/-- C73 does not hold for `write()`: a `Newline` or `BlankLine` is ignored. -/
theorem C73_write_ignores_newline (w : Str) (as bs : List (Node.Tree Elem)) (a b : Node.Tree Elem) :
    points (fun _ _ _ => w) (line (as ++ a :: newline :: b :: bs)) = points (fun _ _ _ => w) (line (as ++ a :: b :: bs)) ∧
    points (fun _ _ _ => w) (line (as ++ a :: blankLine :: b :: bs)) = points (fun _ _ _ => w) (line (as ++ a :: b :: bs)) := by
  have key : ∀ n : Node.Tree Elem, points (fun _ _ _ => w) n = [] → ∀ e as,
      points.kids (fun _ _ _ => w) e (as ++ a :: n :: b :: bs) = points.kids (fun _ _ _ => w) e (as ++ a :: b :: bs) := by
    intro n hn e as
    induction as with
    | nil =>
      simp only [List.nil_append, points.kids, hn]
      simp [collapseLast]
    | cons x as ih =>
      simp only [List.cons_append, points.kids, ih]
      congr 1
      cases as <;> rfl
  constructor <;> simp only [line, points] <;> rw [key _ rfl] <;> simp [headPoint]

/-- C73 does not hold for `write()`: the space before an element without a text of its own is ignored. -/
theorem C73_write_ignores_before :
    write defaultConcat (.node { kind := .plain } [text "a", line [text "b", text "c"], text "d"]) = "ab c\nd".toList ∧
    write defaultConcat (line [text "a", newline, text "b"]) = "a b".toList := by decide +kernel

/-! ## Examples -/

/-- The default whitespace characters. -/
def exSpace (c : Char) : Bool := c == ' ' || c == '\n'

/-- A line with a newline in it. -/
def exTree : Node.Tree Elem := .node { kind := .plain } [text "a", line [text "b", newline, text "c"], text "d"]

example : (writeIndented exSpace defaultConcat {} exTree).map String.ofList = .ok "a\nb\nc\nd\n" := by decide +kernel
example : exTree.get? [1, 1] = some newline ∧ textsLeft exTree [1, 1] = [['a'], ['b']] ∧ textsRight exTree [1, 1] = [['c'], ['d']] :=
  ⟨rfl, rfl, rfl⟩

/-- `write()`: the line asks for a newline after it, its last child is a text. -/
example : Ends { kind := .plain, sp := { after := ['\n'] } } [text "b", newline, text "c"] := .inr (.inr ⟨text "c", rfl, rfl⟩)
example : String.ofList (write defaultConcat exTree) = "ab c\nd" := by decide +kernel

end Quickly.Layout
