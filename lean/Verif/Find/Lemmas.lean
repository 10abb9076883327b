import Verif.Find.Spec
import Mathlib.Data.List.Chain

/-! # Lemmas about positions -/

namespace Quickly.Find

open Quickly.Node Quickly.Node.Spec Spec

theorem toks_eq (t : Tree Org) : toks t = t.val.head ++ toks.go t.children ++ t.val.tail := by
  cases t; rfl

theorem go_append (a b : List (Tree Org)) : toks.go (a ++ b) = toks.go a ++ toks.go b := by
  induction a with
  | nil => rfl
  | cons c a ih => simp [toks.go, ih]

/-! ### Positions are those of the first and last token -/

mutual

theorem stop_eq (t : Tree Org) : stop t = (toks t).getLast?.map Tok.stop := by
  cases t with
  | node e cs =>
    rw [stop, toks, stopKids_eq cs]
    cases ht : e.tail.getLast? with
    | some k => simp [List.getLast?_append, ht]
    | none =>
      cases hc : (toks.go cs).getLast? with
      | some k => simp [List.getLast?_append, ht, hc]
      | none => simp [List.getLast?_append, ht, hc]

theorem stopKids_eq (cs : List (Tree Org)) : stop.kids cs = (toks.go cs).getLast?.map Tok.stop := by
  cases cs with
  | nil => rfl
  | cons c cs =>
    rw [stop.kids, toks.go, stopKids_eq cs, stop_eq c]
    cases hc : (toks.go cs).getLast? with
    | some k => simp [List.getLast?_append, hc]
    | none => simp [List.getLast?_append, hc]

end

/-- Nodes with a tail origin have a head origin. -/
def Headed (t : Tree Org) : Prop := ∀ n, NodeOf t n → n.2.val.tail ≠ [] → n.2.val.head ≠ []

theorem Headed.child {t c : Tree Org} (h : Headed t) (hc : c ∈ t.children) : Headed c := by
  intro n hn
  obtain ⟨i, hi⟩ := List.getElem?_of_mem hc
  refine h (i :: n.1, n.2) ?_
  show t.get? (i :: n.1) = _
  rw [Tree.get?, hi]
  exact hn

theorem findSome_first (l : List (Tree Org)) (f : Tree Org → Option ℤ) (a : List (Tree Org)) :
    (l ++ a).findSome? f = match l.findSome? f with
      | some p => some p
      | none => a.findSome? f := by
  rw [List.findSome?_append]
  cases l.findSome? f <;> rfl

theorem pos_def (t : Tree Org) : pos t = (t :: descendants t).findSome? headPos := by
  rw [pos, List.findSome?_cons]
  cases headPos t <;> rfl

mutual

theorem pos_eq (t : Tree Org) (h : Headed t) : pos t = (toks t).head?.map Tok.pos := by
  cases t with
  | node e cs =>
    rw [pos, headPos, Tree.val, toks, descendants]
    cases he : e.head with
    | cons k ks => simp
    | nil =>
      have ht : e.tail = [] := by
        by_contra hne
        exact h ([], .node e cs) rfl hne he
      rw [ht, posKids_eq cs fun c hc => h.child hc]
      simp

theorem posKids_eq (cs : List (Tree Org)) (h : ∀ c ∈ cs, Headed c) :
    (descendants.go cs).findSome? headPos = (toks.go cs).head?.map Tok.pos := by
  cases cs with
  | nil => rfl
  | cons c cs =>
    rw [descendants.go, findSome_first, ← pos_def, pos_eq c (h c (by simp)),
      posKids_eq cs fun c hc => h c (by simp [hc]), toks.go]
    cases hc : (toks c) with
    | nil => simp
    | cons k ks => simp

end

/-! ### Tokens of a node are tokens of the nodes above it -/

theorem toks_child {t c : Tree Org} (hc : c ∈ t.children) : (toks c).Sublist (toks t) := by
  rw [toks_eq t]
  obtain ⟨as, bs, e⟩ := List.append_of_mem hc
  rw [e, go_append, toks.go]
  refine List.Sublist.trans ?_ (List.sublist_append_left _ _)
  refine List.Sublist.trans ?_ (List.sublist_append_right _ _)
  refine List.Sublist.trans ?_ (List.sublist_append_right _ _)
  exact List.sublist_append_left _ _

theorem ordered_child {t c : Tree Org} (h : Ordered t) (hc : c ∈ t.children) : Ordered c :=
  ⟨fun k hk => h.nonempty k ((toks_child hc).subset hk), h.inOrder.sublist (toks_child hc),
    Headed.child (t := t) h.headed hc⟩

theorem toks_get (t : Tree Org) (p : Path) (n : Tree Org) (h : t.get? p = some n) :
    (toks n).Sublist (toks t) ∧ (Ordered t → Ordered n) := by
  induction p generalizing t with
  | nil => simp only [Tree.get?, Option.some.injEq] at h; subst h; exact ⟨List.Sublist.refl _, id⟩
  | cons i p ih =>
    rw [Tree.get?] at h
    split at h
    · rename_i c hc
      have hc := List.mem_of_getElem? hc
      have := ih c h
      exact ⟨this.1.trans (toks_child hc), fun ho => this.2 (ordered_child ho hc)⟩
    · cases h

theorem under_toks {w m : Item Org} (h : Under w m) : (toks m.2).Sublist (toks w.2) := by
  obtain ⟨r, -, h⟩ := h
  exact (toks_get _ _ _ h).1

theorem under_ordered {w m : Item Org} (h : Under w m) (ho : Ordered w.2) : Ordered m.2 := by
  obtain ⟨r, -, h⟩ := h
  exact (toks_get _ _ _ h).2 ho

/-! ### The span of a node -/

theorem starts_iff {t : Tree Org} (h : Ordered t) (p : ℤ) : Starts t p ↔ pos t = some p := by
  rw [pos_eq t h.headed, Starts]
  cases ht : toks t with
  | nil => simp
  | cons k ks =>
    simp only [List.cons.injEq, List.head?_cons, Option.map_some, Option.some.injEq]
    constructor
    · rintro ⟨k, ks, ⟨rfl, rfl⟩, h⟩; exact h
    · intro h; exact ⟨k, ks, ⟨rfl, rfl⟩, h⟩

theorem ends_iff {t : Tree Org} (e : ℤ) : Ends t e ↔ stop t = some e := by
  rw [stop_eq t, Ends]
  rcases List.eq_nil_or_concat (toks t) with ht | ⟨ks, k, ht⟩
  · simp [ht]
  · rw [ht]
    constructor
    · rintro ⟨ks', k', h, h'⟩
      rw [h, List.getLast?_concat]; simp [h']
    · intro h
      refine ⟨ks, k, List.concat_eq_append .. ▸ rfl, ?_⟩
      simpa using h

theorem starts_le {t : Tree Org} (h : Ordered t) {p : ℤ} (hp : Starts t p) {k : Tok} (hk : k ∈ toks t) :
    p ≤ k.pos := by
  obtain ⟨k0, ks, e, rfl⟩ := hp
  have h1 := h.inOrder
  have h2 := h.nonempty k0 (by simp [e])
  rw [e] at hk h1
  rw [List.pairwise_cons] at h1
  rcases List.mem_cons.1 hk with rfl | hk
  · exact Int.le_refl _
  · have := h1.1 k hk; omega

theorem le_ends {t : Tree Org} (h : Ordered t) {p : ℤ} (hp : Ends t p) {k : Tok} (hk : k ∈ toks t) :
    k.stop ≤ p := by
  obtain ⟨ks, k0, e, rfl⟩ := hp
  have h1 := h.inOrder
  have h2 := h.nonempty k0 (by simp [e])
  rw [e] at hk h1
  rw [List.pairwise_append] at h1
  rcases List.mem_append.1 hk with hk | hk
  · have := h1.2.2 k hk k0 (by simp); omega
  · simp at hk; subst hk; exact Int.le_refl _

theorem starts_mem {t : Tree Org} {p : ℤ} (hp : Starts t p) : ∃ k ∈ toks t, k.pos = p := by
  obtain ⟨k0, ks, e, h⟩ := hp
  exact ⟨k0, by simp [e], h⟩

theorem ends_mem {t : Tree Org} {p : ℤ} (hp : Ends t p) : ∃ k ∈ toks t, k.stop = p := by
  obtain ⟨ks, k0, e, h⟩ := hp
  exact ⟨k0, by simp [e], h⟩

/-- A node with tokens has a start and an end. -/
theorem spans {t : Tree Org} {k : Tok} (hk : k ∈ toks t) : (∃ a, Starts t a) ∧ ∃ b, Ends t b := by
  constructor
  · cases ht : toks t with
    | nil => simp [ht] at hk
    | cons k ks => exact ⟨_, k, ks, ht, rfl⟩
  · rcases List.eq_nil_or_concat (toks t) with ht | ⟨ks, k, ht⟩
    · simp [ht] at hk
    · exact ⟨_, ks, k, by simpa using ht, rfl⟩

/-- One node comes completely before the other in the text. -/
def Sep (a b : Tree Org) : Prop := ∀ j ∈ toks a, ∀ k ∈ toks b, j.stop ≤ k.pos

theorem number_sep (p : Path) (i : ℕ) (cs : List (Tree Org))
    (h : (toks.go cs).Pairwise fun a b => a.stop ≤ b.pos) :
    (number p i cs).Pairwise fun a b => Sep a.2 b.2 := by
  induction cs generalizing i with
  | nil => exact List.Pairwise.nil
  | cons c cs ih =>
    rw [toks.go, List.pairwise_append] at h
    rw [number, List.pairwise_cons]
    refine ⟨?_, ih (i + 1) h.2.1⟩
    intro n hn j hj k hk
    obtain ⟨x, -, hx⟩ := mem_number.1 hn
    obtain ⟨as, bs, e⟩ := List.append_of_mem (List.mem_of_getElem? hx)
    refine h.2.2 j hj k ?_
    rw [e, go_append, toks.go]
    simp [hk]

theorem iterate_sep (n : Item Org) (h : Ordered n.2) :
    (iterate false n).Pairwise fun a b => Sep a.2 b.2 := by
  have h1 := h.inOrder
  rw [toks_eq, List.pairwise_append, List.pairwise_append] at h1
  exact number_sep n.1 0 _ h1.1.2.1

theorem mem_children {rev : Bool} {n c : Item Org} (hc : c ∈ iterate rev n) : c.2 ∈ n.2.children := by
  obtain ⟨k, -, h⟩ := mem_iterate.1 hc
  exact List.mem_of_getElem? h

/-! ### find_child -/

/-- A separated list of ordered nodes. -/
structure Row (ns : List (Item Org)) : Prop where
  sep : ns.Pairwise fun a b => Sep a.2 b.2
  ord : ∀ n ∈ ns, Ordered n.2

theorem Row.tail {n : Item Org} {ns : List (Item Org)} (h : Row (n :: ns)) : Row ns :=
  ⟨(List.pairwise_cons.1 h.sep).2, fun m hm => h.ord m (by simp [hm])⟩

theorem row_iterate (n : Item Org) (h : Ordered n.2) : Row (iterate false n) :=
  ⟨iterate_sep n h, fun _ hm => ordered_child h (mem_children hm)⟩

theorem contains_iff {t : Tree Org} (h : Ordered t) {a b : ℤ} (ha : Starts t a) (hb : Ends t b) (p e : ℤ) :
    Contains p e t ↔ a ≤ p ∧ e ≤ b := by
  constructor
  · rintro ⟨a', b', h1, h2, h3, h4⟩
    have e1 := (starts_iff h a).1 ha
    have e2 := (starts_iff h a').1 h1
    have e3 := (ends_iff (t := t) b).1 hb
    have e4 := (ends_iff (t := t) b').1 h2
    rw [e1] at e2; rw [e3] at e4
    cases e2; cases e4
    exact ⟨h3, h4⟩
  · rintro ⟨h3, h4⟩
    exact ⟨a, b, ha, hb, h3, h4⟩

/-- Nothing to the right of the position touches it. -/
theorem not_contains_of_after {t : Tree Org} {p e : ℤ} (ha : ∀ k ∈ toks t, p < k.pos) :
    ¬ Contains p e t := by
  rintro ⟨a, b, h1, -, h3, -⟩
  obtain ⟨k, hk, rfl⟩ := starts_mem h1
  have := ha k hk
  omega

theorem childLoop_spec (p : ℤ) (ns : List (Item Org)) (hr : Row ns) (prev : Option (Item Org))
    (hp : ∀ m ∈ prev, ∀ n ∈ ns, ∀ k ∈ toks n.2, p ≤ k.pos) :
    ∃ r, childLoop p prev ns = .ok r ∧
      ((r = prev ∧ ∀ n ∈ ns, ¬ Contains p p n.2) ∨
        ∃ as m bs, r = some m ∧ ns = as ++ m :: bs ∧ Contains p p m.2 ∧ ∀ b ∈ bs, ¬ Contains p p b.2) := by
  induction ns generalizing prev with
  | nil => exact ⟨prev, rfl, .inl ⟨rfl, by simp⟩⟩
  | cons n ns ih =>
    have ho := hr.ord n (by simp)
    have hsep := (List.pairwise_cons.1 hr.sep).1
    rw [childLoop]
    cases hpos : pos n.2 with
    | none =>
      have h0 : ¬ Contains p p n.2 := by
        rintro ⟨a, b, h1, -⟩
        rw [starts_iff ho, hpos] at h1
        cases h1
      obtain ⟨r, h1, h2⟩ := ih hr.tail prev fun m hm x hx => hp m hm x (by simp [hx])
      refine ⟨r, h1, ?_⟩
      rcases h2 with ⟨h2, h3⟩ | ⟨as, m, bs, h2, rfl, h4⟩
      · refine .inl ⟨h2, fun b hb => ?_⟩
        rcases List.mem_cons.1 hb with rfl | hb
        · exact h0
        · exact h3 b hb
      · exact .inr ⟨n :: as, m, bs, h2, rfl, h4⟩
    | some a =>
      have ha := (starts_iff ho a).2 hpos
      obtain ⟨k0, hk0, hka⟩ := starts_mem ha
      obtain ⟨-, e, he⟩ := spans hk0
      have hlt : a < e := by
        have := ho.nonempty k0 hk0
        have := le_ends ho he hk0
        omega
      have hafter : ∀ b ∈ ns, ∀ k ∈ toks b.2, e ≤ k.pos := by
        intro b hb k hk
        obtain ⟨j, hj, rfl⟩ := ends_mem he
        exact hsep b hb j hj k hk
      have hstop := (ends_iff (t := n.2) e).1 he
      have hc := contains_iff ho ha he p p
      simp only [hstop]
      by_cases h1 : a = p
      · refine ⟨some n, by simp [h1], .inr ⟨[], n, ns, rfl, rfl, hc.2 (by omega), fun b hb => ?_⟩⟩
        refine not_contains_of_after fun k hk => ?_
        have := hafter b hb k hk
        omega
      · by_cases h2 : a > p
        · refine ⟨prev, by simp [h1, h2], .inl ⟨rfl, fun b hb => ?_⟩⟩
          rcases List.mem_cons.1 hb with rfl | hb
          · rw [hc]; omega
          · refine not_contains_of_after fun k hk => ?_
            have := hafter b hb k hk
            omega
        · by_cases h3 : e > p
          · refine ⟨some n, by simp [h1, h2, h3], .inr ⟨[], n, ns, rfl, rfl, hc.2 (by omega), fun b hb => ?_⟩⟩
            refine not_contains_of_after fun k hk => ?_
            have := hafter b hb k hk
            omega
          · simp only [h1, h2, h3, if_false]
            have hnone : prev = none := by
              cases prev with
              | none => rfl
              | some m =>
                have := hp m rfl n (by simp) k0 hk0
                omega
            obtain ⟨r, h4, h5⟩ := ih hr.tail (if e = p then some n else none) (by
              intro m hm x hx k hk
              split at hm
              · have := hafter x hx k hk; omega
              · cases hm)
            refine ⟨r, h4, ?_⟩
            rcases h5 with ⟨h5, h6⟩ | ⟨as, m, bs, h5, rfl, h7⟩
            · by_cases h7 : e = p
              · rw [if_pos h7] at h5
                exact .inr ⟨[], n, ns, h5, rfl, hc.2 (by omega), h6⟩
              · rw [if_neg h7] at h5
                refine .inl ⟨by rw [h5, hnone], ?_⟩
                intro b hb
                rcases List.mem_cons.1 hb with rfl | hb
                · rw [hc]; omega
                · exact h6 b hb
            · exact .inr ⟨n :: as, m, bs, h5, rfl, h7⟩

/-- The result of `find_child`. -/
theorem findChild_spec (p : ℤ) (n : Item Org) (h : Ordered n.2) :
    ∃ r, findChild p n = .ok r ∧
      ((r = none ∧ ∀ c ∈ iterate false n, ¬ Contains p p c.2) ∨
        ∃ as m bs, r = some m ∧ iterate false n = as ++ m :: bs ∧ Contains p p m.2 ∧
          ∀ b ∈ bs, ¬ Contains p p b.2) :=
  childLoop_spec p _ (row_iterate n h) none (by simp)

/-! ### find_descendants -/

/-- What contains a range touches its start. -/
theorem contains_mono {t : Tree Org} {p e e' : ℤ} (h : e' ≤ e) (hc : Contains p e t) : Contains p e' t := by
  obtain ⟨a, b, h1, h2, h3, h4⟩ := hc
  exact ⟨a, b, h1, h2, h3, by omega⟩

theorem contains_under {w m : Item Org} (h : Under w m) (ho : Ordered w.2) {p e : ℤ} (hc : Contains p e m.2) :
    Contains p e w.2 := by
  obtain ⟨a, b, h1, h2, h3, h4⟩ := hc
  obtain ⟨k, hk, rfl⟩ := starts_mem h1
  obtain ⟨j, hj, rfl⟩ := ends_mem h2
  have hk := (under_toks h).subset hk
  have hj := (under_toks h).subset hj
  obtain ⟨⟨a', ha'⟩, b', hb'⟩ := spans hk
  exact ⟨a', b', ha', hb', by have := starts_le ho ha' hk; omega, by have := le_ends ho hb' hj; omega⟩

theorem descend_spec (p e : ℤ) (hpe : p ≤ e) (k : ℕ) : ∀ n : Item Org, n.2.size ≤ k → Ordered n.2 →
    ∃ ns, descendLoop p e (findChild p n) = .ok ns ∧
      List.IsChain (fun a b => b ∈ iterate false a) (n :: ns) ∧
      (∀ m ∈ ns, Contains p e m.2) ∧
      ∀ c ∈ iterate false n, ∀ d, Under c d → Contains p e d.2 → d ∈ ns ∨ ∃ x ∈ ns, Left d.1 x.1 := by
  induction k with
  | zero => intro n hn; have := size_eq n.2; omega
  | succ k ih =>
    intro n hn ho
    obtain ⟨r, h1, h2⟩ := findChild_spec p n ho
    rw [h1, descendLoop.eq_def]
    have noChild : ∀ ns' : List (Item Org), (∀ c ∈ ns', ¬ Contains p p c.2) → (∀ c ∈ ns', Ordered c.2) →
        ∀ c ∈ ns', ∀ d, Under c d → ¬ Contains p e d.2 := by
      intro ns' hn' ho' c hc d hd hcon
      exact hn' c hc (contains_mono hpe (contains_under hd (ho' c hc) hcon))
    have hoc : ∀ c ∈ iterate false n, Ordered c.2 := (row_iterate n ho).ord
    rcases h2 with ⟨rfl, h2⟩ | ⟨as, m, bs, rfl, h3, h4, h5⟩
    · refine ⟨[], rfl, List.IsChain.singleton n, by simp, ?_⟩
      intro c hc d hd hcon
      exact absurd hcon (noChild _ h2 hoc c hc d hd)
    · have hm : m ∈ iterate false n := by rw [h3]; simp
      have hom := hoc m hm
      obtain ⟨a, b, ha, hb, hap, hpb⟩ := h4
      dsimp only
      rw [(starts_iff hom a).1 ha, (ends_iff (t := m.2) b).1 hb]
      have hleft : ∀ c ∈ as, ∀ d, Under c d → Left d.1 m.1 := by
        intro c hc d hd
        have := iterate_pairwise false n
        rw [h3, List.pairwise_append] at this
        obtain ⟨r, h6, -⟩ := hd
        rw [h6]
        have := Left.append (this.2.2 c hc m (by simp)) r []
        simpa using this
      have hright : ∀ c ∈ bs, ∀ d, Under c d → ¬ Contains p e d.2 :=
        noChild bs h5 fun c hc => hoc c (by rw [h3]; simp [hc])
      by_cases he : e ≤ b
      · have hsize : m.2.size ≤ k := by
          have := findChild_size h1; omega
        obtain ⟨ns, i1, i2, i3, i4⟩ := ih m hsize hom
        simp only [hap, he, and_self, if_true, i1]
        refine ⟨m :: ns, rfl, List.IsChain.cons_cons hm i2, ?_, ?_⟩
        · intro x hx
          rcases List.mem_cons.1 hx with rfl | hx
          · exact ⟨a, b, ha, hb, hap, he⟩
          · exact i3 x hx
        · intro c hc d hd hcon
          rw [h3, List.mem_append, List.mem_cons] at hc
          rcases hc with hc | rfl | hc
          · exact .inr ⟨m, by simp, hleft c hc d hd⟩
          · rcases (under_iff (rev := false)).1 hd with rfl | ⟨c', hc', hd'⟩
            · exact .inl (by simp)
            · rcases i4 c' hc' d hd' hcon with h | ⟨x, hx, h⟩
              · exact .inl (by simp [h])
              · exact .inr ⟨x, by simp [hx], h⟩
          · exact absurd hcon (hright c hc d hd)
      · simp only [he, and_false, if_false]
        refine ⟨[], rfl, List.IsChain.singleton n, by simp, ?_⟩
        intro c hc d hd hcon
        exfalso
        rw [h3, List.mem_append, List.mem_cons] at hc
        rcases hc with hc | rfl | hc
        · -- a node to the left ends before `m` starts, so at or before `p`
          have hcc := contains_under hd (hoc c (by rw [h3]; simp [hc])) hcon
          have hs := iterate_sep n ho
          rw [h3, List.pairwise_append] at hs
          have hs := hs.2.2 c hc m (by simp)
          obtain ⟨a', b', -, hb', -, hp'⟩ := hcc
          obtain ⟨j, hj, hjb⟩ := ends_mem hb'
          obtain ⟨i, hi, hia⟩ := starts_mem ha
          have := hs j hj i hi
          obtain ⟨z, hz, hzb⟩ := ends_mem hb
          have := le_ends hom hb hi
          have := hom.nonempty i hi
          omega
        · have := (contains_iff hom ha hb p e).1 (contains_under hd hom hcon)
          omega
        · exact hright c hc d hd hcon

/-! ### find_descendant_right and find_descendant_left -/

/-- The loop finds the first node for which `Good` holds, in the order of the traversal, if `look` says
skip only when there is no good node at or below a node, and enter only when it is not good
itself. -/
theorem walk_spec (rev : Bool) (look : Item Org → Py Look) (Good : Item Org → Prop) (P : Item Org → Prop)
    (hPc : ∀ n c, P n → c ∈ iterate rev n → P c)
    (hlook : ∀ n, P n → (look n = .ok .skip ∧ ∀ m, Under n m → ¬ Good m) ∨ (look n = .ok .found ∧ Good n) ∨
      (look n = .ok .enter ∧ ¬ Good n)) :
    ∀ (gen : List (Item Org)) (stack : List (List (Item Org))),
      (gen ++ stack.flatten).Pairwise (fun a b => Branch rev a.1 b.1) →
      (∀ n ∈ gen ++ stack.flatten, P n) →
      ∃ r, walk rev look gen stack = .ok r ∧
        match r with
        | none => ∀ w ∈ gen ++ stack.flatten, ∀ m, Under w m → ¬ Good m
        | some n => (∃ w ∈ gen ++ stack.flatten, Under w n) ∧ Good n ∧
            ∀ w ∈ gen ++ stack.flatten, ∀ m, Under w m → Good m → m = n ∨ Order rev n.1 m.1 := by
  intro gen stack
  induction gen, stack using walk.induct (rev := rev) (look := look) with
  | case1 stack n gen e h =>
    intro hp hP
    rcases hlook n (hP n (by simp)) with ⟨h', -⟩ | ⟨h', -⟩ | ⟨h', -⟩ <;> rw [h] at h' <;> cases h'
  | case2 stack n gen h ih =>
    intro hp hP
    have hg : ∀ m, Under n m → ¬ Good m := by
      rcases hlook n (hP n (by simp)) with ⟨-, h'⟩ | ⟨h', -⟩ | ⟨h', -⟩
      · exact h'
      · rw [h] at h'; cases h'
      · rw [h] at h'; cases h'
    rw [List.cons_append, List.pairwise_cons] at hp
    obtain ⟨r, h1, h2⟩ := ih hp.2 fun m hm => hP m (by simp only [List.cons_append, List.mem_cons]; exact .inr hm)
    refine ⟨r, by rw [walk, h]; exact h1, ?_⟩
    cases r with
    | none =>
      intro w hw m hm
      rcases List.mem_cons.1 hw with rfl | hw
      · exact hg m hm
      · exact h2 w hw m hm
    | some x =>
      obtain ⟨⟨w, hw, hu⟩, h3, h4⟩ := h2
      refine ⟨⟨w, List.mem_cons_of_mem _ hw, hu⟩, h3, ?_⟩
      intro w hw m hm hgm
      rcases List.mem_cons.1 hw with rfl | hw
      · exact absurd hgm (hg m hm)
      · exact h4 w hw m hm hgm
  | case3 stack n gen h =>
    intro hp hP
    refine ⟨some n, by rw [walk, h], ⟨n, by simp, under_self n⟩, ?_, ?_⟩
    · rcases hlook n (hP n (by simp)) with ⟨h', -⟩ | ⟨-, h'⟩ | ⟨h', -⟩
      · rw [h] at h'; cases h'
      · exact h'
      · rw [h] at h'; cases h'
    · intro w hw m hm _
      by_cases hmn : m = n
      · exact .inl hmn
      · right
        refine under_order (goes_iterate rev) (W := gen ++ stack.flatten) (ok := true) (n := n) hp ?_
        rcases List.mem_cons.1 hw with rfl | hw
        · rcases (under_iff (rev := rev)).1 hm with rfl | ⟨c, hc, hu⟩
          · exact absurd rfl hmn
          · exact ⟨c, by simp only [kidsIf, if_true, List.mem_append]; exact .inl hc, desc_iterate.2 hu⟩
        · exact ⟨w, List.mem_append.2 (.inr hw), desc_iterate.2 hm⟩
  | case4 stack n gen h ih =>
    intro hp hP
    have hg : ¬ Good n := by
      rcases hlook n (hP n (by simp)) with ⟨h', -⟩ | ⟨h', -⟩ | ⟨-, h'⟩
      · rw [h] at h'; cases h'
      · rw [h] at h'; cases h'
      · exact h'
    have hp' := pairwise_expand (goes_iterate rev) (W := gen ++ stack.flatten) true (n := n) hp
    simp only [kidsIf, if_true] at hp'
    obtain ⟨r, h1, h2⟩ := ih (by simpa using hp') (by
      intro m hm
      simp only [List.flatten_cons, List.mem_append] at hm
      rcases hm with hm | hm
      · exact hPc n m (hP n (by simp)) hm
      · exact hP m (by simp only [List.cons_append, List.mem_cons, List.mem_append]; exact .inr hm))
    refine ⟨r, by rw [walk, h]; exact h1, ?_⟩
    have key : ∀ m, ((∃ w ∈ n :: (gen ++ stack.flatten), Under w m) ∧ m ≠ n → ∃ w ∈ iterate rev n ++ (gen :: stack).flatten, Under w m) ∧
        ((∃ w ∈ iterate rev n ++ (gen :: stack).flatten, Under w m) → ∃ w ∈ n :: (gen ++ stack.flatten), Under w m) := by
      intro m
      constructor
      · rintro ⟨⟨w, hw, hu⟩, hne⟩
        rcases List.mem_cons.1 hw with rfl | hw
        · rcases (under_iff (rev := rev)).1 hu with rfl | ⟨c, hc, hu⟩
          · exact absurd rfl hne
          · exact ⟨c, List.mem_append.2 (.inl hc), hu⟩
        · exact ⟨w, List.mem_append.2 (.inr hw), hu⟩
      · rintro ⟨w, hw, hu⟩
        rcases List.mem_append.1 hw with hw | hw
        · exact ⟨n, by simp, (under_iff (rev := rev)).2 (.inr ⟨w, hw, hu⟩)⟩
        · exact ⟨w, List.mem_cons_of_mem _ hw, hu⟩
    cases r with
    | none =>
      intro w hw m hm hgm
      by_cases hmn : m = n
      · subst hmn; exact hg hgm
      · obtain ⟨w', hw', hu'⟩ := (key m).1 ⟨⟨w, hw, hm⟩, hmn⟩
        exact h2 w' hw' m hu' hgm
    | some x =>
      obtain ⟨h3, h4, h5⟩ := h2
      refine ⟨(key x).2 h3, h4, ?_⟩
      intro w hw m hm hgm
      by_cases hmn : m = n
      · subst hmn; exact absurd hgm hg
      · obtain ⟨w', hw', hu'⟩ := (key m).1 ⟨⟨w, hw, hm⟩, hmn⟩
        exact h5 w' hw' m hu' hgm
  | case5 gen stack ih =>
    intro hp hP
    obtain ⟨r, h1, h2⟩ := ih (by simpa using hp) (by simpa using hP)
    refine ⟨r, by rw [walk]; exact h1, ?_⟩
    simpa using h2
  | case6 =>
    intro _ _
    exact ⟨none, by rw [walk], by simp⟩

end Quickly.Find
