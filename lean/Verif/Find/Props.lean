import Verif.Find.Lemmas

/-! # C43: finding nodes by text position -/

namespace Quickly.Find

open Quickly.Node Quickly.Node.Spec Spec

theorem under_root {t : Tree Org} {n : Item Org} : Under ([], t) n ↔ NodeOf t n := by
  constructor
  · rintro ⟨r, h1, h2⟩; rw [NodeOf, h1]; exact h2
  · intro h; exact ⟨n.1, rfl, h⟩

theorem descendant_iff {rev : Bool} {t : Tree Org} {n : Item Org} :
    Descendant t n ↔ ∃ c ∈ iterate rev ([], t), Under c n := by
  constructor
  · rintro ⟨h1, h2⟩
    rcases (under_iff (rev := rev)).1 (under_root.2 h1) with rfl | h
    · exact absurd rfl h2
    · exact h
  · rintro ⟨c, hc, hu⟩
    refine ⟨under_root.1 ((under_iff (rev := rev)).2 (.inr ⟨c, hc, hu⟩)), ?_⟩
    obtain ⟨k, h1, -⟩ := mem_iterate.1 hc
    obtain ⟨r, h2, -⟩ := hu
    rw [h2, h1]; simp

/-- The text of a node: its start and end. -/
theorem C43_pos_end (t : Tree Org) (h : Ordered t) (n : Item Org) (hn : NodeOf t n) (p e : ℤ) :
    (pos n.2 = some p ↔ Starts n.2 p) ∧ (stop n.2 = some e ↔ Ends n.2 e) :=
  ⟨(starts_iff (under_ordered (under_root.2 hn) h) p).symm, (ends_iff e).symm⟩

/-- **C43**: `find_child` returns the last child that touches the position, if there is one. -/
theorem C43_find_child (t : Tree Org) (h : Ordered t) (position : ℤ) :
    ∃ r, findChild position ([], t) = .ok r ∧
      match r with
      | none => ∀ (i : ℕ) c, t.children[i]? = some c → ¬ Contains position position c
      | some n => ∃ i, n.1 = [i] ∧ t.children[i]? = some n.2 ∧ Contains position position n.2 ∧
          ∀ j c, i < j → t.children[j]? = some c → ¬ Contains position position c := by
  obtain ⟨r, h1, h2⟩ := findChild_spec position ([], t) h
  refine ⟨r, h1, ?_⟩
  rcases h2 with ⟨rfl, h2⟩ | ⟨as, m, bs, rfl, h3, h4, h5⟩
  · intro i c hc
    exact h2 ([i], c) (mem_iterate.2 ⟨i, rfl, hc⟩)
  · have hm : m ∈ iterate false ([], t) := by rw [h3]; simp
    obtain ⟨i, e1, e2⟩ := mem_iterate.1 hm
    refine ⟨i, e1, e2, h4, ?_⟩
    intro j c hij hc
    have hj : (([j], c) : Item Org) ∈ iterate false ([], t) := mem_iterate.2 ⟨j, rfl, hc⟩
    have hp := iterate_pairwise false (([], t) : Item Org)
    rw [h3, List.mem_append, List.mem_cons] at hj
    rw [h3, List.pairwise_append] at hp
    have bad : ∀ a b : ℕ, Left [a] [b] → a < b := by
      rintro a b ⟨c, x, y, r, s, h1, h2, hxy⟩
      cases c with
      | nil => simp only [List.nil_append, List.cons.injEq] at h1 h2; omega
      | cons z c => simp at h1
    rcases hj with hj | hj | hj
    · have := hp.2.2 _ hj m (by simp)
      rw [e1] at this
      have := bad _ _ this
      omega
    · rw [← hj] at e1
      simp at e1
      omega
    · exact h5 _ hj

/-- The end of the range: no range before the position. -/
def rangeEnd (position : ℤ) : Option ℤ → ℤ
  | none => position
  | some e => max e position

theorem findDescendants_spec (t : Tree Org) (h : Ordered t) (position : ℤ) (stopPos : Option ℤ) :
    ∃ ns, findDescendants position stopPos ([], t) = .ok ns ∧
      List.IsChain (fun a b : Item Org => b ∈ iterate false a) (([], t) :: ns) ∧
      (∀ m ∈ ns, Contains position (rangeEnd position stopPos) m.2) ∧
      ∀ d, Descendant t d → Contains position (rangeEnd position stopPos) d.2 → d ∈ ns ∨ ∃ x ∈ ns, Left d.1 x.1 := by
  have hpe : position ≤ rangeEnd position stopPos := by
    cases stopPos with
    | none => exact Int.le_refl _
    | some e => simp only [rangeEnd]; omega
  obtain ⟨ns, h1, h2, h3, h4⟩ := descend_spec position _ hpe _ ([], t) (Nat.le_refl _) h
  refine ⟨ns, ?_, h2, h3, ?_⟩
  · rw [← h1, findDescendants.eq_def]
    cases stopPos with
    | none => rfl
    | some e =>
      have he : (if e < position then position else e) = max e position := by split <;> omega
      simp only [rangeEnd, he]
  · intro d hd hc
    obtain ⟨c, hc', hu⟩ := (descendant_iff (rev := false)).1 hd
    exact h4 c hc' d hu hc

/-- **C43**: `find_descendants` yields a child, a grandchild, etc., that contain the position (or range);
any other descendant that contains it is in a branch to the left of one of these. -/
theorem C43_find_descendants (t : Tree Org) (h : Ordered t) (position : ℤ) (stopPos : Option ℤ) :
    ∃ ns, findDescendants position stopPos ([], t) = .ok ns ∧
      List.IsChain (fun a b : Item Org => ∃ i, b.1 = a.1 ++ [i] ∧ a.2.children[i]? = some b.2) (([], t) :: ns) ∧
      (∀ m ∈ ns, Contains position (rangeEnd position stopPos) m.2) ∧
      ∀ d, Descendant t d → Contains position (rangeEnd position stopPos) d.2 → d ∈ ns ∨ ∃ x ∈ ns, Left d.1 x.1 := by
  obtain ⟨ns, h1, h2, h3⟩ := findDescendants_spec t h position stopPos
  exact ⟨ns, h1, h2.imp fun a b hab => mem_iterate.1 hab, h3⟩

theorem chain_last {n l : Item Org} {ns : List (Item Org)}
    (h : List.IsChain (fun a b : Item Org => b ∈ iterate false a) (n :: ns))
    (hl : (n :: ns).getLast? = some l) : ∀ x ∈ n :: ns, (x = l ∨ Above x.1 l.1) ∧ Under n x := by
  induction ns generalizing n with
  | nil =>
    simp only [List.getLast?_singleton, Option.some.injEq] at hl
    subst hl
    intro x hx
    simp only [List.mem_singleton] at hx
    subst hx
    exact ⟨.inl rfl, under_self _⟩
  | cons m ns ih =>
    have hm : m ∈ iterate false n := by cases h with | cons_cons h _ => exact h
    have hc : List.IsChain (fun a b : Item Org => b ∈ iterate false a) (m :: ns) := by cases h with | cons_cons _ h => exact h
    have hl' : (m :: ns).getLast? = some l := by rwa [List.getLast?_cons_cons] at hl
    have ih := ih hc hl'
    obtain ⟨k, hk, -⟩ := mem_iterate.1 hm
    have ha : Above n.1 m.1 := ⟨k, [], hk⟩
    intro x hx
    rcases List.mem_cons.1 hx with rfl | hx
    · refine ⟨.inr ?_, under_self _⟩
      rcases (ih m (by simp)).1 with rfl | h
      · exact ha
      · exact Above.trans ha h
    · exact ⟨(ih x hx).1, (under_iff (rev := false)).2 (.inr ⟨m, hm, (ih x hx).2⟩)⟩

/-- **C43**: `find_descendant` returns the last node in document order that contains the position (or
the range), if there is one: no other that contains it is below the node or
to the right of it. -/
theorem C43_find_descendant (t : Tree Org) (h : Ordered t) (position : ℤ) (stopPos : Option ℤ) :
    ∃ r, findDescendant position stopPos ([], t) = .ok r ∧
      match r with
      | none => ∀ d, Descendant t d → ¬ Contains position (rangeEnd position stopPos) d.2
      | some n => Descendant t n ∧ Contains position (rangeEnd position stopPos) n.2 ∧
          ∀ d, Descendant t d → Contains position (rangeEnd position stopPos) d.2 → d = n ∨ DocBefore d.1 n.1 := by
  obtain ⟨ns, h1, h2, h3, h4⟩ := findDescendants_spec t h position stopPos
  refine ⟨ns.getLast?, by rw [findDescendant, h1], ?_⟩
  cases hl : ns.getLast? with
  | none =>
    rw [List.getLast?_eq_none_iff] at hl
    subst hl
    intro d hd hc
    rcases h4 d hd hc with h | ⟨x, hx, -⟩
    · cases h
    · cases hx
  | some n =>
    have hmem : n ∈ ns := List.mem_of_getLast? hl
    cases ns with
    | nil => cases hl
    | cons m ns =>
      have hm : m ∈ iterate false ([], t) := by cases h2 with | cons_cons h _ => exact h
      have hc : List.IsChain (fun a b : Item Org => b ∈ iterate false a) (m :: ns) := by cases h2 with | cons_cons _ h => exact h
      have key := chain_last hc hl
      refine ⟨(descendant_iff (rev := false)).2 ⟨m, hm, (key n hmem).2⟩, h3 n hmem, ?_⟩
      intro d hd hcd
      rcases h4 d hd hcd with h | ⟨x, hx, hlx⟩
      · rcases (key d h).1 with h | h
        · exact .inl h
        · exact .inr (.inl h)
      · right; right
        rcases (key x hx).1 with rfl | ⟨i, r, e⟩
        · exact hlx
        · rw [e]
          have := Left.append hlx [] (i :: r)
          simpa using this

/-- **C43**: `find_descendant_right` returns the first descendant in document order that starts at
or after the position, if there is one. -/
theorem C43_find_right (t : Tree Org) (h : Ordered t) (position : ℤ) :
    ∃ r, findRight position ([], t) = .ok r ∧
      match r with
      | none => ∀ d p, Descendant t d → Starts d.2 p → p < position
      | some n => Descendant t n ∧ (∃ p, Starts n.2 p ∧ position ≤ p) ∧
          ∀ d p, Descendant t d → Starts d.2 p → position ≤ p → d = n ∨ DocBefore n.1 d.1 := by
  let Good : Item Org → Prop := fun n => ∃ p, Starts n.2 p ∧ position ≤ p
  obtain ⟨r, h1, h2⟩ := walk_spec false (lookRight position) Good (fun n => Ordered n.2)
    (fun n c hn hc => ordered_child hn (mem_children hc)) (by
      intro n hn
      rw [lookRight]
      cases hs : stop n.2 with
      | none =>
        left
        refine ⟨rfl, ?_⟩
        rintro m hm ⟨p, hp, -⟩
        obtain ⟨k, hk, -⟩ := starts_mem hp
        obtain ⟨b, hb⟩ := (spans ((under_toks hm).subset hk)).2
        rw [ends_iff, hs] at hb
        cases hb
      | some e =>
        have he := (ends_iff (t := n.2) e).2 hs
        obtain ⟨k, hk, -⟩ := ends_mem he
        obtain ⟨a, ha⟩ := (spans hk).1
        simp only [(starts_iff hn a).1 ha]
        by_cases h1 : e > position
        · by_cases h2 : a ≥ position
          · right; left
            exact ⟨by simp [h1, h2], a, ha, h2⟩
          · right; right
            refine ⟨by simp [h1, h2], ?_⟩
            rintro ⟨p, hp, hpp⟩
            rw [starts_iff hn] at hp ha
            rw [hp] at ha
            cases ha
            exact h2 hpp
        · left
          refine ⟨by simp [h1], ?_⟩
          rintro m hm ⟨p, hp, hpp⟩
          obtain ⟨k, hk, rfl⟩ := starts_mem hp
          have hk := (under_toks hm).subset hk
          have := le_ends hn he hk
          have := hn.nonempty k hk
          omega)
    (iterate false ([], t)) [] (by simpa using iterate_pairwise false (([], t) : Item Org))
    (by intro n hn; rw [List.flatten_nil, List.append_nil] at hn; exact ordered_child h (mem_children hn))
  rw [List.flatten_nil, List.append_nil] at h2
  refine ⟨r, h1, ?_⟩
  cases r with
  | none =>
    intro d p hd hp
    obtain ⟨c, hc, hu⟩ := (descendant_iff (rev := false)).1 hd
    by_contra hlt
    exact h2 c hc d hu ⟨p, hp, by omega⟩
  | some n =>
    obtain ⟨h3, h4, h5⟩ := h2
    refine ⟨descendant_iff.2 h3, h4, ?_⟩
    intro d p hd hp hpp
    obtain ⟨c, hc, hu⟩ := (descendant_iff (rev := false)).1 hd
    exact h5 c hc d hu ⟨p, hp, hpp⟩

/-- **C43**: `find_descendant_left` returns, of the descendants that end at or before the position, the
one that ends last, if there is one. If there are more that end there, it is the highest one:
all others are below it or to the left of it. -/
theorem C43_find_left (t : Tree Org) (h : Ordered t) (position : ℤ) :
    ∃ r, findLeft position ([], t) = .ok r ∧
      match r with
      | none => ∀ d e, Descendant t d → Ends d.2 e → position < e
      | some n => Descendant t n ∧ ∃ b, Ends n.2 b ∧ b ≤ position ∧
          ∀ d e, Descendant t d → Ends d.2 e → e ≤ position → e ≤ b ∧ (d = n ∨ BackBefore n.1 d.1) := by
  let Good : Item Org → Prop := fun n => ∃ p, Ends n.2 p ∧ p ≤ position
  obtain ⟨r, h1, h2⟩ := walk_spec true (lookLeft position) Good (fun n => Ordered n.2)
    (fun n c hn hc => ordered_child hn (mem_children hc)) (by
      intro n hn
      rw [lookLeft]
      cases hs : pos n.2 with
      | none =>
        left
        refine ⟨rfl, ?_⟩
        rintro m hm ⟨p, hp, -⟩
        obtain ⟨k, hk, -⟩ := ends_mem hp
        obtain ⟨b, hb⟩ := (spans ((under_toks hm).subset hk)).1
        rw [starts_iff hn, hs] at hb
        cases hb
      | some a =>
        have ha := (starts_iff hn a).2 hs
        obtain ⟨k, hk, -⟩ := starts_mem ha
        obtain ⟨e, he⟩ := (spans hk).2
        simp only [(ends_iff (t := n.2) e).1 he]
        by_cases h1 : a < position
        · by_cases h2 : e ≤ position
          · right; left
            exact ⟨by simp [h1, h2], e, he, h2⟩
          · right; right
            refine ⟨by simp [h1, h2], ?_⟩
            rintro ⟨p, hp, hpp⟩
            rw [ends_iff] at hp he
            rw [hp] at he
            cases he
            exact h2 hpp
        · left
          refine ⟨by simp [h1], ?_⟩
          rintro m hm ⟨p, hp, hpp⟩
          obtain ⟨k, hk, rfl⟩ := ends_mem hp
          have hk := (under_toks hm).subset hk
          have := starts_le hn ha hk
          have := hn.nonempty k hk
          omega)
    (iterate true ([], t)) [] (by simpa using iterate_pairwise true (([], t) : Item Org))
    (by intro n hn; rw [List.flatten_nil, List.append_nil] at hn; exact ordered_child h (mem_children hn))
  rw [List.flatten_nil, List.append_nil] at h2
  refine ⟨r, h1, ?_⟩
  cases r with
  | none =>
    intro d e hd he
    obtain ⟨c, hc, hu⟩ := (descendant_iff (rev := true)).1 hd
    by_contra hlt
    exact h2 c hc d hu ⟨e, he, by omega⟩
  | some n =>
    obtain ⟨h3, ⟨b, hb, hbp⟩, h5⟩ := h2
    have hd := descendant_iff.2 h3
    refine ⟨hd, b, hb, hbp, ?_⟩
    intro d e hdd he hep
    obtain ⟨c, hc, hu⟩ := (descendant_iff (rev := true)).1 hdd
    have ho := h5 c hc d hu ⟨e, he, hep⟩
    refine ⟨?_, ho⟩
    have hon := under_ordered (under_root.2 hd.1) h
    rcases ho with rfl | hab | hl
    · rw [ends_iff] at hb he
      rw [hb] at he; cases he; exact Int.le_refl _
    · obtain ⟨i, r, hr⟩ := hab
      have hun : Under n d := by
        refine ⟨i :: r, hr, ?_⟩
        have e1 := hdd.1
        rw [NodeOf, hr, get?_append, hd.1] at e1
        exact e1
      obtain ⟨k, hk, rfl⟩ := ends_mem he
      exact le_ends hon hb ((under_toks hun).subset hk)
    · -- to the left
      obtain ⟨z, i, j, r, s, e1, e2, hij⟩ := hl
      have hz := hdd.1
      rw [NodeOf, e1, get?_append] at hz
      cases hg : t.get? z with
      | none => rw [hg] at hz; cases hz
      | some a =>
        rw [hg] at hz
        have hz2 := hd.1
        rw [NodeOf, e2, get?_append, hg] at hz2
        have hoa := (toks_get t z a hg).2 h
        simp only [Option.bind_some, Tree.get?] at hz hz2
        split at hz
        · rename_i ca hca
          split at hz2
          · rename_i cb hcb
            have hs := number_sep [] 0 a.children (by
              have h1 := hoa.inOrder
              rw [toks_eq, List.pairwise_append, List.pairwise_append] at h1
              exact h1.1.2.1)
            have hle : Sep ca cb := by
              have hlen : (number [] 0 a.children).length = a.children.length := by
                have : ∀ (i : ℕ) (l : List (Tree Org)), (number [] i l).length = l.length := by
                  intro i l
                  induction l generalizing i with
                  | nil => rfl
                  | cons x l ih => simp [number, ih]
                exact this 0 _
              have hget : ∀ (i : ℕ) (l : List (Tree Org)) (k : ℕ) c, l[k]? = some c → (number [] i l)[k]? = some ([i + k], c) := by
                intro i l
                induction l generalizing i with
                | nil => intro k c h; simp at h
                | cons x l ih =>
                  intro k c h
                  cases k with
                  | zero => simp at h; simp [number, h]
                  | succ k =>
                    simp only [List.getElem?_cons_succ] at h
                    simp only [number, List.getElem?_cons_succ]
                    rw [ih (i + 1) k c h, Nat.add_assoc, Nat.add_comm 1 k]
              have g1 := hget 0 _ _ _ hca
              have g2 := hget 0 _ _ _ hcb
              obtain ⟨hi, g1⟩ := List.getElem?_eq_some_iff.1 g1
              obtain ⟨hj, g2⟩ := List.getElem?_eq_some_iff.1 g2
              have := List.pairwise_iff_getElem.1 hs i j hi hj hij
              rwa [g1, g2] at this
            obtain ⟨k, hk, rfl⟩ := ends_mem he
            obtain ⟨k', hk', rfl⟩ := ends_mem hb
            have hk := (toks_get _ _ _ hz).1.subset hk
            have hkb := (toks_get _ _ _ hz2).1.subset hk'
            have := hle k hk k' hkb
            have := hon.nonempty k' hk'
            omega
          · cases hz2
        · cases hz

/-! ### Example -/

/-- `{ c4 d }`: a block from 0 to 8 with a note from 2 to 3 that has a duration from 3 to 4, a new note
without origin, and a note from 5 to 6. -/
def exTree : Tree Org :=
  .node {} [.node ⟨[⟨0, 1⟩], [⟨7, 8⟩]⟩
    [.node ⟨[⟨2, 3⟩], []⟩ [.node ⟨[⟨3, 4⟩], []⟩ []], .node {} [], .node ⟨[⟨5, 6⟩], []⟩ []]]

/-- Checks that nodes with a tail have a head. -/
def headedB : Tree Org → Bool
  | .node e cs => (e.tail.isEmpty || !e.head.isEmpty) && go cs
where
  /-- The children. -/
  go : List (Tree Org) → Bool
    | [] => true
    | c :: cs => headedB c && go cs

theorem headedB_go {cs : List (Tree Org)} (h : headedB.go cs = true) : ∀ c ∈ cs, headedB c = true := by
  induction cs with
  | nil => simp
  | cons c cs ih =>
    rw [headedB.go, Bool.and_eq_true] at h
    intro d hd
    rcases List.mem_cons.1 hd with rfl | hd
    · exact h.1
    · exact ih h.2 d hd

theorem headed_of {t : Tree Org} (h : headedB t = true) : Headed t := by
  rintro ⟨p, n⟩ hn
  induction p generalizing t with
  | nil =>
    cases hn
    cases n with
    | node e cs =>
      rw [headedB, Bool.and_eq_true] at h
      intro h1
      have h1 : e.tail ≠ [] := h1
      have := h.1
      show e.head ≠ []
      simpa [h1] using this
  | cons i p ih =>
    rw [NodeOf, Tree.get?] at hn
    split at hn
    · rename_i c hc
      refine ih (t := c) ?_ hn
      cases t with
      | node e cs =>
        rw [headedB, Bool.and_eq_true] at h
        exact headedB_go h.2 c (List.mem_of_getElem? hc)
    · cases hn

theorem exOrdered : Ordered exTree := ⟨by decide, by decide, headed_of (by decide)⟩

/-- The place of a result. -/
def place (r : Py (Option (Item Org))) : Option Path :=
  match r with
  | .ok (some n) => some n.1
  | _ => none

example : place (findChild 0 ([], exTree)) = some [0] := by decide +kernel
example : place (findDescendant 3 none ([], exTree)) = some [0, 0, 0] := by
  simp [findDescendant, findDescendants, descendLoop, findChild, iterate, number, exTree, childLoop, pos, headPos,
    stop, stop.kids, Tree.val, Tree.children, place]
example : place (findRight 4 ([], exTree)) = some [0, 2] := by
  simp [findRight, walk, lookRight, iterate, number, exTree, pos, headPos, stop, stop.kids, Tree.val, Tree.children,
    place]
example : place (findLeft 4 ([], exTree)) = some [0, 0] := by
  simp [findLeft, walk, lookLeft, iterate, number, exTree, pos, headPos, stop, stop.kids, Tree.val, Tree.children,
    place, descendants, descendants.go]

/-- Why nodes with a tail origin need a head origin: otherwise there is a TypeError. -/
example : findRight 0 ([], .node {} [.node ⟨[], [⟨0, 1⟩]⟩ []]) = .error .typeError := by
  simp [findRight, walk, lookRight, iterate, number, pos, headPos, stop, stop.kids, Tree.val, Tree.children,
    descendants, descendants.go]

end Quickly.Find
