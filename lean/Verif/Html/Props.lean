import Verif.Html.Lemmas
import Verif.Html.Inj

/-!
# C75: Html that is built with the element constructor
-/

namespace Quickly.Html

open Quickly.Node Quickly.Text Quickly.Html.Spec

/-- The call of the element constructor for a piece of Html: `m(name, *contents, **attributes)`. -/
def build : X → Arg
  | .text s => .str s
  | .elem name attrs kids => .node (make name (go kids) attrs)
where
  /-- The contents. -/
  go : List X → List Arg
    | [] => []
    | x :: xs => build x :: go xs

theorem escape_eq (s : Str) : escape s = esc s := by
  unfold escape esc
  congr 1
  funext c
  unfold escChar
  split
  · subst_vars; rfl
  · split
    · subst_vars; rfl
    · split
      · subst_vars; rfl
      · split
        · subst_vars; rfl
        · split
          · subst_vars; rfl
          · split <;> simp_all

theorem elems_node (v : Val) (cs : List Dom) : elems (.node v cs) = .node v.cls.elem (cs.map elems) := by
  have : ∀ ds : List Dom, elems.go ds = ds.map elems := by
    intro ds
    induction ds with
    | nil => rfl
    | cons d ds ih => rw [elems.go, ih]; rfl
  rw [elems, this]

/-- The text of a node. -/
def outD (t : Dom) : Str := out (elems t)

/-- No whitespace around it. -/
def NiceD (t : Dom) : Prop := Nice (elems t)

theorem new_zero (c : Cls) (cs : List Dom) (hs : c.elem.sp = {}) (h : ∀ x ∈ cs, NiceD x) :
    NiceD (new c cs) ∧ outD (new c cs) = headOf c.elem ++ (cs.map outD).flatten ++ tailOf c.elem := by
  unfold NiceD outD new
  rw [elems_node]
  have := node_zero c.elem (cs.map elems) hs (by
    intro x hx
    obtain ⟨d, hd, rfl⟩ := List.mem_map.mp hx
    exact h d hd)
  rw [List.map_map] at this
  exact this

theorem new_tag (c : Cls) (d : Dom) (cs : List Dom) (hk : c.elem.kind = .block) (hs : c.elem.sp = { between := [' '] })
    (h : ∀ x ∈ d :: cs, NiceD x ∧ LastText (points defaultConcat (elems x))) :
    NiceD (new c (d :: cs)) ∧
      outD (new c (d :: cs)) = c.elem.head ++ outD d ++ (cs.map fun x => [' '] ++ outD x).flatten ++ c.elem.tail := by
  unfold NiceD outD new
  rw [elems_node, List.map_cons]
  have := node_tag c.elem (elems d) (cs.map elems) hk hs (by
    intro x hx
    rw [← List.map_cons, List.mem_map] at hx
    obtain ⟨y, hy, rfl⟩ := hx
    exact h y hy)
  rw [List.map_map] at this
  exact this

theorem leaf_facts (c : Cls) (hk : c.elem.kind = .head) (hs : c.elem.sp = {}) : NiceD (new c []) ∧ outD (new c []) = c.elem.head := by
  have := new_zero c [] hs (by simp)
  simpa [headOf, tailOf, hk] using this

theorem leaf_points (c : Cls) (hk : c.elem.kind = .head) (ht : c.elem.head ≠ []) : LastText (points defaultConcat (elems (new c []))) := by
  rw [new, elems_node, List.map_nil, points]
  simp [points.kids, headPoint, tailPoint, hk, LastText, ht]

theorem attr_facts (a : Str × Option Str) (hn : a.1 ≠ []) :
    NiceD (attrNode a) ∧ LastText (points defaultConcat (elems (attrNode a))) ∧ [' '] ++ outD (attrNode a) = serAttr a := by
  obtain ⟨k, v⟩ := a
  have h1 := leaf_facts (.attrName k) rfl rfl
  cases v with
  | none =>
    have := new_zero .attribute [new (.attrName k) []] rfl (by simpa using h1.1)
    refine ⟨this.1, ?_, ?_⟩
    · rw [show attrNode (k, none) = .node { cls := .attribute } [new (.attrName k) []] from rfl, elems_node, points]
      have hl := leaf_points (.attrName k) rfl hn
      simp only [List.map_cons, List.map_nil, points.kids, headPoint, tailPoint, Cls.elem, if_true, Option.toList_none, List.nil_append,
        reduceCtorEq, if_false, Option.isSome_none, Bool.false_eq_true, List.append_nil]
      rw [collapseLast_nil _ h1.1.2]
      exact hl
    · rw [attrNode, this.2, serAttr]
      simp [headOf, tailOf, Cls.elem, h1.2]
  | some v =>
    have h2 := leaf_facts .equalSign rfl rfl
    have h3 := leaf_facts (.text v) rfl rfl
    have h4 := new_zero .dqString [new (.text v) []] rfl (by simpa using h3.1)
    have := new_zero .attribute [new (.attrName k) [], new .equalSign [], new .dqString [new (.text v) []]] rfl (by
      intro x hx
      simp only [List.mem_cons, List.not_mem_nil, or_false] at hx
      rcases hx with rfl | rfl | rfl
      · exact h1.1
      · exact h2.1
      · exact h4.1)
    refine ⟨this.1, ?_, ?_⟩
    · have hk := kids_zero Cls.attribute.elem ([new (.attrName k) [], new .equalSign [], new .dqString [new (.text v) []]].map elems) rfl rfl (by
        intro x hx
        obtain ⟨d, hd, rfl⟩ := List.mem_map.mp hx
        simp only [List.mem_cons, List.not_mem_nil, or_false] at hd
        rcases hd with rfl | rfl | rfl
        · exact h1.1
        · exact h2.1
        · exact h4.1)
      rw [show attrNode (k, some v) = .node { cls := .attribute } [new (.attrName k) [], new .equalSign [], new .dqString [new (.text v) []]] from rfl,
        elems_node, points, hk]
      refine ⟨⟨none, ['"'], false, [], []⟩, ?_, by simp⟩
      simp [new, elems, elems.go, points, points.kids, headPoint, tailPoint, Cls.elem, collapseLast]
    · rw [attrNode, this.2, serAttr]
      simp [headOf, tailOf, Cls.elem, h1.2, h2.2, h4.2, h3.2, escape_eq]

theorem isName_ne {s : Str} (h : isName s = true) : s ≠ [] := by
  intro h0
  subst h0
  simp [isName] at h

theorem tag_facts (c : Cls) (name : Str) (attrs : List (Str × Option Str)) (hk : c.elem.kind = .block) (hs : c.elem.sp = { between := [' '] })
    (hn : name ≠ []) (ha : ∀ a ∈ attrs, a.1 ≠ []) :
    NiceD (new c (new (.tagName name) [] :: attrs.map attrNode)) ∧
    outD (new c (new (.tagName name) [] :: attrs.map attrNode)) = c.elem.head ++ name ++ (attrs.map serAttr).flatten ++ c.elem.tail := by
  have h1 := leaf_facts (.tagName name) rfl rfl
  have := new_tag c (new (.tagName name) []) (attrs.map attrNode) hk hs (by
    intro x hx
    rw [List.mem_cons] at hx
    rcases hx with rfl | hx
    · exact ⟨h1.1, leaf_points (.tagName name) rfl hn⟩
    · obtain ⟨a, hm, rfl⟩ := List.mem_map.mp hx
      have := attr_facts a (ha a hm)
      exact ⟨this.1, this.2.1⟩)
  refine ⟨this.1, ?_⟩
  rw [this.2, h1.2, List.map_map]
  congr 2
  congr 1
  apply List.map_congr_left
  intro a hm
  exact (attr_facts a (ha a hm)).2.2

theorem build_go (xs : List X) : build.go xs = xs.map build := by
  induction xs with
  | nil => rfl
  | cons x xs ih => rw [build.go, ih]; rfl

theorem ser_go (xs : List X) : ser.go xs = (xs.map ser).flatten := by
  induction xs with
  | nil => rfl
  | cons x xs ih => rw [ser.go, ih]; rfl

theorem named_go (xs : List X) : named.go xs = xs.all named := by
  induction xs with
  | nil => rfl
  | cons x xs ih => rw [named.go, ih]; rfl

theorem dom_facts : (x : X) → named x = true → NiceD (build x).dom ∧ outD (build x).dom = ser x
  | .text s, _ => by
    have := leaf_facts (.text s) rfl rfl
    refine ⟨this.1, ?_⟩
    rw [show (build (.text s)).dom = new (.text s) [] from rfl, this.2, ser]
    exact escape_eq s
  | .elem name attrs kids, h => by
    rw [named, Bool.and_eq_true, Bool.and_eq_true, named_go] at h
    obtain ⟨⟨h1, h2⟩, h3⟩ := h
    rw [List.all_eq_true] at h2 h3
    have hn := isName_ne h1
    have ha : ∀ a ∈ attrs, a.1 ≠ [] := fun a hm => isName_ne (h2 a hm)
    have hk : ∀ k ∈ kids, NiceD (build k).dom ∧ outD (build k).dom = ser k := fun k hm => dom_facts k (h3 k hm)
    rw [show (build (.elem name attrs kids)).dom = make name (build.go kids) attrs from rfl, build_go]
    cases kids with
    | nil =>
      rw [List.map_nil, make]
      have ht := tag_facts .singleTag name attrs rfl rfl hn ha
      have := new_zero .element [new .singleTag (new (.tagName name) [] :: attrs.map attrNode)] rfl (by simpa using ht.1)
      refine ⟨this.1, ?_⟩
      rw [this.2, List.map_singleton, ht.2, ser]
      simp [headOf, tailOf, Cls.elem]
    | cons k ks =>
      rw [List.map_cons, make, ← List.map_cons (f := build)]
      have ht := tag_facts .openTag name attrs rfl rfl hn ha
      have hc := tag_facts .closeTag name [] rfl rfl hn (by simp)
      have := new_zero .element ([new .openTag (new (.tagName name) [] :: attrs.map attrNode)] ++
        ((k :: ks).map build).map Arg.dom ++ [new .closeTag [new (.tagName name) []]]) rfl (by
          intro x hx
          simp only [List.append_assoc, List.mem_append, List.mem_singleton] at hx
          rcases hx with rfl | hx | rfl
          · exact ht.1
          · rw [List.map_map, List.mem_map] at hx
            obtain ⟨y, hy, rfl⟩ := hx
            exact (hk y hy).1
          · exact hc.1)
      refine ⟨this.1, ?_⟩
      rw [this.2, List.map_append, List.map_append, List.map_singleton, List.map_singleton, ht.2, show outD (new .closeTag [new (.tagName name) []]) = _ from hc.2, ser, ser_go, List.map_map, List.map_map]
      have : List.map ((outD ∘ Arg.dom) ∘ build) (k :: ks) = List.map ser (k :: ks) := by
        apply List.map_congr_left
        intro y hy
        exact (hk y hy).2
      rw [this]
      simp [headOf, tailOf, Cls.elem]
termination_by x => x
decreasing_by
  have := List.sizeOf_lt_of_mem hm
  simp_wf
  omega

theorem kids_last (e : Elem) (ys : List (Node.Tree Elem)) (z : Node.Tree Elem) :
    ∃ A w, points.kids defaultConcat e (ys ++ [z]) = A ++ collapseLast (points defaultConcat z) w ∨
      points.kids defaultConcat e (ys ++ [z]) = A ++ points defaultConcat z := by
  induction ys with
  | nil =>
    simp only [List.nil_append, points.kids, List.append_nil]
    split
    · exact ⟨[], [], .inr rfl⟩
    · exact ⟨[], _, .inl rfl⟩
  | cons y ys ih =>
    obtain ⟨A, w, h⟩ := ih
    rw [List.cons_append]
    simp only [points.kids]
    rcases h with h | h
    · rw [h, ← List.append_assoc]; exact ⟨_, w, .inl rfl⟩
    · rw [h, ← List.append_assoc]; exact ⟨_, w, .inr rfl⟩

theorem lastText_element (ys : List Dom) (z : Dom) (h : LastText (points defaultConcat (elems z))) :
    LastText (points defaultConcat (elems (new .element (ys ++ [z])))) := by
  obtain ⟨p, hp, ht⟩ := h
  rw [new, elems_node, List.map_append, List.map_singleton, points]
  obtain ⟨A, w, hk⟩ := kids_last Cls.element.elem (ys.map elems) (elems z)
  have : (tailPoint Cls.element.elem).toList = [] := rfl
  rw [this, List.append_nil]
  rcases hk with hk | hk
  · rw [hk]
    refine ⟨{ p with after := collapse [p.after, w] }, ?_, ht⟩
    rw [List.getLast?_append, List.getLast?_append, collapseLast_getLast, hp]
    rfl
  · rw [hk]
    refine ⟨p, by rw [List.getLast?_append, List.getLast?_append, hp]; rfl, ht⟩

theorem lastText_block (c : Cls) (l : List Dom) (hk : c.elem.kind = .block) (ht : c.elem.tail ≠ []) :
    LastText (points defaultConcat (elems (new c l))) := by
  rw [new, elems_node, points, show tailPoint c.elem = some _ from if_pos hk]
  refine ⟨_, by rw [List.getLast?_append]; rfl, ht⟩

/-- **C75**: an element that is built with the element constructor writes exactly its Html: with the tag name, the attributes with
their values in quotes, all contents in order, and nothing else. -/
theorem C75_write (name : Str) (attrs : List (Str × Option Str)) (kids : List X) (h : named (.elem name attrs kids) = true) :
    write (build (.elem name attrs kids)).dom = ser (.elem name attrs kids) := by
  obtain ⟨h1, h2⟩ := dom_facts _ h
  rw [← h2, write, write_flat _ _ h1.1 h1.2]
  · rfl
  · rw [show (build (.elem name attrs kids)).dom = make name (build.go kids) attrs from rfl, make.eq_def]
    split
    · exact lastText_element _ _ (lastText_block .closeTag _ rfl (by simp [Cls.elem]))
    · exact lastText_element [] _ (lastText_block .singleTag _ rfl (by simp [Cls.elem]))

/-- `<p class="a&amp;b">1 &lt; 2 <br/></p>`. -/
example : let x : X := .elem "p".toList [("class".toList, some "a&b".toList)] [.text "1 < 2 ".toList, .elem "br".toList [] []]
    named x = true ∧ normal x = true ∧ write (build x).dom = "<p class=\"a&amp;b\">1 &lt; 2 <br/></p>".toList :=
  ⟨by decide, by decide, by rw [C75_write _ _ _ (by decide)]; decide⟩

/-- **C75**: different Html never writes the same text: whatever the text and the attribute values are, they cannot be taken for
tags or for the end of a value. -/
theorem C75_injective (name : Str) (attrs : List (Str × Option Str)) (kids : List X)
    (name' : Str) (attrs' : List (Str × Option Str)) (kids' : List X)
    (h : named (.elem name attrs kids) = true) (h' : named (.elem name' attrs' kids') = true)
    (n : normal (.elem name attrs kids) = true) (n' : normal (.elem name' attrs' kids') = true)
    (e : write (build (.elem name attrs kids)).dom = write (build (.elem name' attrs' kids')).dom) :
    X.elem name attrs kids = X.elem name' attrs' kids' := by
  rw [C75_write _ _ _ h, C75_write _ _ _ h'] at e
  exact (ser_inj _ _ [] [] h h' n n' (by simp [isText]) (by simp [isText]) (by rw [e])).1

/-- Without the condition on the contents: text in two pieces is written as in one. -/
example : ser (.elem "p".toList [] [.text "ab".toList]) = ser (.elem "p".toList [] [.text "a".toList, .text "b".toList]) := by decide

theorem plain_go (u : Str → Str) (xs : List X) (h : ∀ x ∈ xs, ∀ n as ks, x = .elem n as ks → ∀ r, toPlaintext u r (build x).dom = plain x)
    (r : Option (Str → Str)) (rest : List Dom) :
    toPlaintext.go u r ((build.go xs).map Arg.dom ++ rest) = plain.go xs ++ toPlaintext.go u r rest := by
  induction xs with
  | nil => rfl
  | cons x xs ih =>
    rw [build.go, List.map_cons, List.cons_append, plain.go]
    have ih := ih (fun y hy => h y (List.mem_cons_of_mem _ hy))
    cases x with
    | text s =>
      rw [show (build (.text s)).dom = .node { cls := .text s } [] from rfl, toPlaintext.go, ih]
      simp [plain]
    | elem n as ks =>
      have := h _ (List.mem_cons_self ..) n as ks rfl none
      obtain ⟨l, hl⟩ : ∃ l, (build (.elem n as ks)).dom = .node { cls := .element } l := by
        cases ks <;> exact ⟨_, rfl⟩
      rw [hl] at this ⊢
      rw [toPlaintext.go, ih]
      simp only [this, List.append_assoc]

/-- **C75**: the plain text of an element is all its text in order, without the names and the attributes, and with every
character as it was given. -/
theorem C75_plaintext (u : Str → Str) (r : Option (Str → Str)) : (x : X) → isText x = false →
    toPlaintext u r (build x).dom = plain x
  | .text s, h => by simp [isText] at h
  | .elem n as ks, _ => by
    have h : ∀ x ∈ ks, ∀ n as kk, x = .elem n as kk → ∀ r, toPlaintext u r (build x).dom = plain x := by
      intro x hx n as kk e r
      subst e
      exact C75_plaintext u r (.elem n as kk) rfl
    rw [plain, build]
    have := plain_go u ks h r
    cases ks with
    | nil => rfl
    | cons k ks =>
      rw [build.go, make, Arg.dom, new, toPlaintext, ← build.go, List.append_assoc, List.singleton_append, new, toPlaintext.go, this]
      simp [new, toPlaintext.go]
termination_by x => x
decreasing_by
  have := List.sizeOf_lt_of_mem hx
  subst e
  simp_wf
  simp at this
  omega

/-- `1 < 2`, of `<p>1 &lt; <b>2</b></p>`. -/
example : toPlaintext id none (build (.elem "p".toList [] [.text "1 < ".toList, .elem "b".toList [] [.text "2".toList]])).dom =
    "1 < 2".toList := by rw [C75_plaintext _ _ _ rfl]; decide

/-- **C75**: an entity resolver is only asked for the entities in the contents of the element itself: in an element in it,
every resolver gives the same plain text. -/
theorem C75_resolver_ignored (u : Str → Str) (f g : Str → Str) (v : Val) (cs : List Dom)
    (h : ∀ c ∈ cs, ∀ w l, c = .node w l → ∀ s, w.cls ≠ .entityRef s) :
    toPlaintext u (some f) (.node v cs) = toPlaintext u (some g) (.node v cs) := by
  rw [toPlaintext, toPlaintext]
  induction cs with
  | nil => rfl
  | cons c cs ih =>
    obtain ⟨w, l⟩ := c
    have hw := h _ (List.mem_cons_self ..) w l rfl
    rw [toPlaintext.go, toPlaintext.go, ih fun c hc => h c (List.mem_cons_of_mem _ hc)]
    congr 1
    obtain ⟨c, _, _⟩ := w
    cases c <;> first | rfl | exact absurd rfl (hw _)

/-- So the entity in `<p>&x;<b>&x;</b></p>` is resolved once. -/
example : toPlaintext (fun s => s) (some fun _ => "X".toList)
    (make "p".toList [.node (new (.entityRef "x".toList) []), .node (make "b".toList [.node (new (.entityRef "x".toList) [])] [])] []) =
    "X&x;".toList := by decide

theorem leaf_write (c : Cls) (h1 : c.elem.kind = .head) (h2 : c.elem.sp = {}) (h3 : c.elem.head ≠ []) : write (new c []) = c.elem.head := by
  obtain ⟨g1, g2⟩ := leaf_facts c h1 h2
  rw [← g2, write, write_flat _ _ g1.1 g1.2]
  · rfl
  · exact leaf_points c h1 h3

theorem cdata_end (r : List Char) : replaceCData (']' :: ']' :: '>' :: r) = "]]>]]&gt;<[CDATA[".toList ++ replaceCData r := by
  rw [replaceCData.eq_def]
  split
  · rename_i e; cases e; rfl
  · rename_i h e; cases e; exact (h _ rfl rfl).elim
  · rename_i e; cases e

theorem cdata_char (c : Char) (r : List Char) (h : ∀ r1, c = ']' → r = ']' :: '>' :: r1 → False) : replaceCData (c :: r) = c :: replaceCData r := by
  rw [replaceCData.eq_def]
  split
  · rename_i e; cases e; exact (h _ rfl rfl).elim
  · rename_i e; cases e; rfl
  · rename_i e; cases e

theorem cdata_parts : ∀ s : Str, ∃ p ps, s = p ++ (ps.map fun q => "]]>".toList ++ q).flatten ∧ (∀ q ∈ p :: ps, ¬ "]]>".toList <:+: q) ∧
    replaceCData s = p ++ (ps.map fun q => "]]>]]&gt;<[CDATA[".toList ++ q).flatten := by
  intro s
  induction s using replaceCData.induct with
  | case1 r ih =>
    obtain ⟨p, ps, e1, e2, e3⟩ := ih
    refine ⟨[], p :: ps, ?_, ?_, ?_⟩
    · simp [e1]
    · intro q hq
      rcases List.mem_cons.1 hq with rfl | hq
      · simp
      · exact e2 q hq
    · rw [cdata_end, e3]
      simp only [List.map_cons, List.flatten_cons, List.nil_append, List.append_assoc]
  | case2 c r hne ih =>
    obtain ⟨p, ps, e1, e2, e3⟩ := ih
    refine ⟨c :: p, ps, by rw [e1]; simp only [List.cons_append], ?_, by
      rw [cdata_char c r hne, e3]
      simp only [List.cons_append]⟩
    intro q hq
    rcases List.mem_cons.1 hq with rfl | hq
    · intro hin
      rw [List.infix_cons_iff] at hin
      rcases hin with ⟨t, ht⟩ | hin
      · simp only [List.cons_append, List.cons.injEq, String.reduceToList, List.nil_append] at ht
        obtain ⟨rfl, rfl⟩ := ht
        exact hne _ rfl (by rw [e1]; rfl)
      · exact e2 p (by simp) hin
    · exact e2 q (by simp [hq])
  | case3 => exact ⟨[], [], rfl, by simp, rfl⟩

/-- **C75**: a CDATA section is not written as one (`<![CDATA[`), and its text is not part of the plain text.  The text is written as it is, but where there is
`]]>` in it, the section is closed, and another one opened after `]]&gt;`. -/
theorem C75_cdata (s : Str) (u : Str → Str) (r : Option (Str → Str)) (v : Val) :
    (∃ p ps, s = p ++ (ps.map fun q => "]]>".toList ++ q).flatten ∧ (∀ q ∈ p :: ps, ¬ "]]>".toList <:+: q) ∧
      write (new (.cdata s) []) = "<[CDATA[".toList ++ p ++ (ps.map fun q => "]]>]]&gt;<[CDATA[".toList ++ q).flatten ++ "]]>".toList) ∧
    toPlaintext u r (.node v [new (.cdata s) []]) = [] := by
  refine ⟨?_, rfl⟩
  obtain ⟨p, ps, e1, e2, e3⟩ := cdata_parts s
  refine ⟨p, ps, e1, e2, ?_⟩
  rw [leaf_write (.cdata s) rfl rfl (by simp [Cls.elem])]
  simp only [Cls.elem, e3, List.append_assoc]

/-- **C75**: names, numbers and signs are written as they are. -/
theorem C75_words (s : Str) (h : s ≠ []) : write (new (.number s) []) = s ∧ write (new (.unit s) []) = s ∧ write (new (.tagName s) []) = s ∧
    write (new (.attrName s) []) = s ∧ write (new .equalSign []) = ['='] ∧ write (new .colon []) = [':'] :=
  ⟨leaf_write _ rfl rfl h, leaf_write _ rfl rfl h, leaf_write _ rfl rfl h, leaf_write _ rfl rfl h, leaf_write _ rfl rfl (by simp [Cls.elem]),
    leaf_write _ rfl rfl (by simp [Cls.elem])⟩

/-- **C75**: a string keeps its kind of quotes, and its pieces come in between without space: text escaped,
entities as they were. -/
theorem C75_quoted (single : Bool) (ps : List (Str ⊕ Str)) :
    let q : Str := if single then ['\''] else ['"']
    write (new (if single then .sqString else .dqString) (ps.map fun p => match p with
      | .inl s => new (.text s) []
      | .inr s => new (.entityRef s) [])) =
    q ++ (ps.map fun p => match p with | .inl s => esc s | .inr s => '&' :: s ++ [';']).flatten ++ q := by
  intro q
  obtain ⟨c, hc⟩ : ∃ c : Cls, c = if single then .sqString else .dqString := ⟨_, rfl⟩
  have hh : c.elem.head = q ∧ c.elem.tail = q ∧ c.elem.kind = .block ∧ c.elem.sp = {} ∧ q ≠ [] := by
    cases single <;> subst hc <;> exact ⟨rfl, rfl, rfl, rfl, by simp [q]⟩
  obtain ⟨h1, h2, h3, h4, h5⟩ := hh
  obtain ⟨kids, hk⟩ : ∃ kids, kids = ps.map fun p => match p with
      | .inl s => new (.text s) []
      | .inr s => new (.entityRef s) [] := ⟨_, rfl⟩
  rw [← hc, ← hk]
  have nice : ∀ x ∈ kids, NiceD x := by
    intro x hx
    rw [hk] at hx
    obtain ⟨p, _, rfl⟩ := List.mem_map.1 hx
    cases p with
    | inl s => exact (leaf_facts (.text s) rfl rfl).1
    | inr s => exact (leaf_facts (.entityRef s) rfl rfl).1
  obtain ⟨n1, n2⟩ := new_zero c kids h4 nice
  have e : outD (new c kids) = q ++ (ps.map fun p => match p with | .inl s => esc s | .inr s => '&' :: s ++ [';']).flatten ++ q := by
    rw [n2, headOf, tailOf, h1, h2, h3, hk, List.map_map]
    simp only [reduceCtorEq, if_false, if_true]
    congr 3
    refine List.map_congr_left fun p _ => ?_
    cases p with
    | inl s => exact (leaf_facts (.text s) rfl rfl).2.trans (escape_eq s)
    | inr s => exact (leaf_facts (.entityRef s) rfl rfl).2
  rw [← e, write, write_flat _ _ n1.1 n1.2]
  · rfl
  · rw [new, elems_node, points]
    refine ⟨⟨none, q, false, [], []⟩, ?_, h5⟩
    have ho : c.elem.tailOrigin = none ∧ c.elem.tailModified = false := by
      cases single <;> subst hc <;> exact ⟨rfl, rfl⟩
    simp [tailPoint, h3, h2, h4, ho]

example : write (new .sqString [new (.text "a'b".toList) [], new (.entityRef "amp".toList) []]) = "'a&#x27;b&amp;'".toList := by
  decide

end Quickly.Html
