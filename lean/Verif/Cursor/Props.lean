import Verif.Cursor.Spec
import Verif.Find.Props
import Verif.Range.Props

/-! # C70 -/

namespace Quickly.Cursor

open Quickly.Node Quickly.Node.Spec Quickly.Find Quickly.Find.Spec Quickly.NodeRange Quickly.NodeRange.Spec Spec

theorem starts_inj {t : Tree Org} {p q : ℤ} (h : Starts t p) (h' : Starts t q) : p = q := by
  obtain ⟨k, ks, h1, rfl⟩ := h
  obtain ⟨j, js, h2, rfl⟩ := h'
  rw [h1] at h2
  cases h2
  rfl

theorem starts_lt_ends {t : Tree Org} (h : Ordered t) {p e : ℤ} (hp : Starts t p) (he : Ends t e) : p < e := by
  obtain ⟨k, hk, rfl⟩ := ends_mem he
  have := starts_le h hp hk
  have := h.nonempty k hk
  omega

theorem ordered_of {t : Tree Org} (h : Ordered t) {n : Item Org} (hn : NodeOf t n) : Ordered n.2 :=
  under_ordered (under_root.2 hn) h

theorem sub_of_above {t : Tree Org} {m n : Item Org} (hm : NodeOf t m) (hn : NodeOf t n) (h : Above m.1 n.1) : Under m n := by
  obtain ⟨i, r, h⟩ := h
  refine ⟨i :: r, h, ?_⟩
  unfold NodeOf at hm hn
  rw [h, get?_append, hm] at hn
  exact hn

theorem starts_above {t : Tree Org} (h : Ordered t) {m n : Item Org} (hm : NodeOf t m) (hn : NodeOf t n) (ha : Above m.1 n.1)
    {p q : ℤ} (hp : Starts m.2 p) (hq : Starts n.2 q) : p ≤ q := by
  obtain ⟨k, hk, rfl⟩ := starts_mem hq
  exact starts_le (ordered_of h hm) hp ((under_toks (sub_of_above hm hn ha)).subset hk)

theorem ends_above {t : Tree Org} (h : Ordered t) {m n : Item Org} (hm : NodeOf t m) (hn : NodeOf t n) (ha : Above m.1 n.1)
    {p q : ℤ} (hp : Ends m.2 p) (hq : Ends n.2 q) : q ≤ p := by
  obtain ⟨k, hk, rfl⟩ := ends_mem hq
  exact le_ends (ordered_of h hm) hp ((under_toks (sub_of_above hm hn ha)).subset hk)

theorem left_sep {t : Tree Org} (h : Ordered t) {m n : Item Org} (hm : NodeOf t m) (hn : NodeOf t n) (hl : Left m.1 n.1)
    {e q : ℤ} (he : Ends m.2 e) (hq : Starts n.2 q) : e ≤ q := by
  obtain ⟨c, i, j, r, s, h1, h2, hij⟩ := hl
  unfold NodeOf at hm hn
  rw [h1, get?_append] at hm
  rw [h2, get?_append] at hn
  cases hx : t.get? c with
  | none => rw [hx] at hm; simp at hm
  | some x =>
    rw [hx] at hm hn
    simp only [Option.bind_some] at hm hn
    obtain ⟨ci, hci, hm⟩ := get?_cons hm
    obtain ⟨cj, hcj, hn⟩ := get?_cons hn
    have hox : Ordered x := ordered_of h (n := (c, x)) hx
    have hs := iterate_sep ([], x) hox
    have hget : ∀ (k : ℕ) y, x.children[k]? = some y → (iterate false (([], x) : Item Org))[k]? = some ([k], y) := by
      intro k y hk
      have := getElem?_number [] 0 k x.children
      rw [hk] at this
      simpa [iterate] using this
    obtain ⟨hi', g1⟩ := List.getElem?_eq_some_iff.1 (hget i ci hci)
    obtain ⟨hj', g2⟩ := List.getElem?_eq_some_iff.1 (hget j cj hcj)
    have := List.pairwise_iff_getElem.1 hs i j hi' hj' hij
    rw [g1, g2] at this
    obtain ⟨k, hk, rfl⟩ := ends_mem he
    obtain ⟨k', hk', rfl⟩ := starts_mem hq
    exact this k ((toks_get _ _ _ hm).1.subset hk) k' ((toks_get _ _ _ hn).1.subset hk')

theorem ends_of_starts {t : Tree Org} {p : ℤ} (h : Starts t p) : ∃ e, Ends t e := by
  obtain ⟨k, hk, -⟩ := starts_mem h
  exact (spans hk).2

theorem starts_of_ends {t : Tree Org} {p : ℤ} (h : Ends t p) : ∃ e, Starts t e := by
  obtain ⟨k, hk, -⟩ := ends_mem h
  exact (spans hk).1

/-- Two nodes above a third one. -/
theorem above_cases {p q x : Path} (h1 : Above p x) (h2 : Above q x) : p = q ∨ Above p q ∨ Above q p := by
  rcases place_cases p q with h | h | h | h | h
  · exact .inl h
  · exact .inr (.inl h)
  · exact .inr (.inr h)
  · obtain ⟨i, r, h1⟩ := h1
    obtain ⟨j, s, h2⟩ := h2
    exact absurd (h1.symm.trans h2) (left_ne_prefix h)
  · obtain ⟨i, r, h1⟩ := h1
    obtain ⟨j, s, h2⟩ := h2
    exact absurd (h2.symm.trans h1) (left_ne_prefix h)

/-- A node above one that is to the left of `b`. -/
theorem above_left {m x b : Path} (h1 : Above m x) (h2 : Left x b) : Above m b ∨ Left m b := by
  rcases place_cases m b with h | h | h | h | h
  · subst h; exact absurd h1 (left_not_above h2).2
  · exact .inl h
  · exact absurd (Above.trans h h1) (left_not_above h2).2
  · exact .inr h
  · obtain ⟨i, r, rfl⟩ := h1
    have := Left.append h [] (i :: r)
    rw [List.append_nil] at this
    exact absurd this (left_asymm h2)

theorem nodeOf_descendant {t : Tree Org} {n : Item Org} (h : Descendant t n) : NodeOf t n := h.1

/-- The first node that starts in the selection, by position. -/
theorem first_iff {t : Tree Org} (h : Ordered t) {pos : ℤ} {a : Item Org} (ha : Descendant t a)
    (hs : ∃ p, Starts a.2 p ∧ pos ≤ p)
    (hmin : ∀ d p, Descendant t d → Starts d.2 p → pos ≤ p → d = a ∨ DocBefore a.1 d.1)
    {m : Item Org} (hm : NodeOf t m) (hne : m.1 ≠ []) {p : ℤ} (hp : Starts m.2 p) : NotBefore m.1 a.1 ↔ pos ≤ p := by
  obtain ⟨q, hq, hle⟩ := hs
  constructor
  · rintro (h1 | h1 | h1)
    · have : m.2 = a.2 := by
        have h2 := ha.1
        unfold NodeOf at hm h2
        rw [h1, h2] at hm
        exact (Option.some.inj hm).symm
      rw [this] at hp
      rw [starts_inj hp hq]
      exact hle
    · have := starts_above h ha.1 hm h1 hq hp
      omega
    · obtain ⟨e, he⟩ := ends_of_starts hq
      have := left_sep h ha.1 hm h1 he hp
      have := starts_lt_ends (ordered_of h ha.1) hq he
      omega
  · intro h1
    rcases hmin m p ⟨hm, hne⟩ hp h1 with rfl | h2
    · exact .inl rfl
    · exact .inr h2

/-- C70: an edit of a selection visits, in document order, the nodes that begin in the selection and that are selected or
have something selected in them, except the nodes inside the last selected node; and the range of the text that is given to
`Element.edit` is in the selection. This is for a selection that has nodes in it, does not begin inside a node and go on past its end, and
does not consist of one node (or `range_from_root` is set). For other selections and for the nodes in the last node it is
not so, see below. -/
theorem C70_selection_partial (t : Tree Org) (h : Ordered t) (c : Cursor) (hc : c.hasSelection = true) (fromRoot fromCursor : Bool)
    (hsel : ∃ d, Descendant t d ∧ Selected c d) (hcut : CutsNone t c) (hone : fromRoot = false → ¬ InOne t c) :
    ∃ j s e b, job t c fromRoot fromCursor = .ok j ∧ j.start = some s ∧ j.stop = some e ∧ c.pos ≤ s ∧ s < e ∧ e ≤ c.stop ∧
      Last t c b ∧ (∃ ns, Visits t j ns) ∧
      ∀ ns, Visits t j ns → ns.Pairwise (fun x y => DocBefore x.1 y.1) ∧ (∀ m ∈ ns, NodeOf t m) ∧
        ∀ m p, Descendant t m → Starts m.2 p →
          (m ∈ ns ↔ c.pos ≤ p ∧ HasSelected t c m ∧ ¬ Above b.1 m.1) := by
  obtain ⟨d, hd, ds, de, d1, d2, d3, d4⟩ := hsel
  obtain ⟨ra, hra, hra'⟩ := C43_find_right t h c.pos
  obtain ⟨rb, hrb, hrb'⟩ := C43_find_left t h c.stop
  cases ra with
  | none => exact absurd (hra' d ds hd d1) (by omega)
  | some a =>
  cases rb with
  | none => exact absurd (hrb' d de hd d2) (by omega)
  | some b =>
  simp only at hra' hrb'
  obtain ⟨ha, has, hmin⟩ := hra'
  obtain ⟨hb, be, b1, b2, hmax⟩ := hrb'
  have hfirst := fun {m : Item Org} (hm : Descendant t m) {p : ℤ} (hp : Starts m.2 p) =>
    first_iff h ha has hmin hm.1 hm.2 hp
  obtain ⟨bs, b3⟩ := starts_of_ends b1
  obtain ⟨as, a1, a2⟩ := has
  -- the last node is selected
  have hbd : HasSelected t c b ∨ c.pos ≤ bs := by
    rcases (hmax d de hd d2 d4).2 with rfl | hx | hx
    · exact .inr (by rw [starts_inj b3 d1]; exact d3)
    · exact .inl ⟨d, hd.1, .inr hx, ds, de, d1, d2, d3, d4⟩
    · have := left_sep h hd.1 hb.1 hx d2 b3
      have := starts_lt_ends (ordered_of h hd.1) d1 d2
      exact .inr (by omega)
  have hbs : c.pos ≤ bs := by
    rcases hbd with hx | hx
    · exact hcut b bs be hb hx b3 b1 b2
    · exact hx
  have hlast : Last t c b := by
    refine ⟨hb, ⟨bs, be, b3, b1, hbs, b2⟩, ?_⟩
    rintro n hn ⟨p, e, n1, n2, n3, n4⟩
    exact (hmax n e hn n2 n4).2
  have hab : NotBefore b.1 a.1 := (hfirst hb b3).2 hbs
  have hroot : if fromRoot then (refOf a).path ≠ [] else ¬ AboveOrSelf (refOf a).path (refOf b).path := by
    cases fromRoot with
    | true => exact ha.2
    | false =>
      simp only [Bool.false_eq_true, if_false]
      rintro ⟨r, hr⟩
      refine hone rfl ⟨a, as, ha, a1, a2, ?_⟩
      rintro x hx ⟨p, e, x1, x2, x3, x4⟩
      have k1 := (hfirst hx x1).2 x3
      have k2 := hlast.2.2 x hx ⟨p, e, x1, x2, x3, x4⟩
      have hr : b.1 = a.1 ++ r := hr
      have hba : b.1 = a.1 ∨ Above a.1 b.1 := by
        cases r with
        | nil => exact .inl (by simpa using hr)
        | cons i r => exact .inr ⟨i, r, hr⟩
      rcases k2 with rfl | k2 | k2
      · exact hba
      · rcases hba with e | hba
        · rw [e] at k2; exact .inr k2
        · exact .inr (Above.trans hba k2)
      · rcases k1 with k1 | k1 | k1
        · exact .inl k1
        · exact .inr k1
        · have := Left.append k1 r []
          rw [List.append_nil, ← hr] at this
          exact absurd this (left_asymm k2)
  obtain ⟨x, st, en, y, g1, g2, g3, g4⟩ := C33_between_partial t (refOf a) (refOf b) rfl a.2 b.2 ha.1 hb.1 hab fromRoot hroot
  have hj : job t c fromRoot fromCursor = .ok ⟨x, st, en, some as, some be⟩ := by
    have e1 := ((C43_pos_end t h a ha.1 as 0).1).2 a1
    have e2 := ((C43_pos_end t h b hb.1 0 be).2).2 b1
    simp [job, hc, hra, hrb, g1, e1, e2]
  have hsle : as < be := by
    have h1 : as ≤ bs := by
      rcases hab with h1 | h1 | h1
      · have : b.2 = a.2 := by
          have k1 := ha.1; have k2 := hb.1
          unfold NodeOf at k1 k2
          rw [h1, k1] at k2
          exact (Option.some.inj k2).symm
        rw [this] at b3
        exact Int.le_of_eq (starts_inj a1 b3)
      · exact starts_above h ha.1 hb.1 h1 a1 b3
      · obtain ⟨ae, he⟩ := ends_of_starts a1
        have := left_sep h ha.1 hb.1 h1 he b3
        have := starts_lt_ends (ordered_of h ha.1) a1 he
        omega
    have := starts_lt_ends (ordered_of h hb.1) b3 b1
    omega
  refine ⟨_, as, be, b, hj, rfl, rfl, a2, hsle, b2, hlast, ?_, ?_⟩
  · obtain ⟨out, ho⟩ := g3
    exact ⟨_, y, out, g2, ho, rfl⟩
  · rintro ns ⟨y', out, hy, ho, rfl⟩
    rw [show x.path = (Job.mk x st en (some as) (some be)).ancestor.path from rfl, hy] at g2
    cases g2
    obtain ⟨k1, k2⟩ := g4 out ho
    refine ⟨k1, fun m hm => ((k2 m).1 hm).1, ?_⟩
    intro m p hm hp
    refine (k2 m).trans ?_
    obtain ⟨e, he⟩ := ends_of_starts hp
    have hlt := starts_lt_ends (ordered_of h hm.1) hp he
    constructor
    · rintro ⟨-, j2, j3⟩
      have hpp := (hfirst hm hp).1 j2
      refine ⟨hpp, ?_, ?_⟩
      · rcases j3 with j3 | j3 | j3
        · exact ⟨b, hb.1, .inl j3, hlast.2.1⟩
        · exact ⟨b, hb.1, .inr j3, hlast.2.1⟩
        · have := left_sep h hm.1 hb.1 j3 he b3
          have := starts_lt_ends (ordered_of h hb.1) b3 b1
          exact ⟨m, hm.1, .inl rfl, p, e, hp, he, hpp, by omega⟩
      · intro hx
        exact (notBefore_iff _ _).1 j3 (.inl hx)
    · rintro ⟨j1, ⟨z, hz, hzm, zs, ze, z1, z2, z3, z4⟩, j3⟩
      refine ⟨hm.1, (hfirst hm hp).2 j1, ?_⟩
      have hzd : Descendant t z := by
        refine ⟨hz, ?_⟩
        rcases hzm with e | ⟨i, r, e⟩
        · rw [e]; exact hm.2
        · rw [e]; simp
      rcases (hmax z ze hzd z2 z4).2 with rfl | hx | hx
      · rcases hzm with e | hzm
        · exact .inl e
        · exact .inr (.inl hzm)
      · rcases hzm with e | hzm
        · rw [e] at hx; exact absurd hx j3
        · rcases above_cases hx hzm with e | hx | hx
          · exact .inl e
          · exact absurd hx j3
          · exact .inr (.inl hx)
      · rcases hzm with e | hzm
        · rw [e] at hx; exact .inr (.inr hx)
        · rcases above_left hzm hx with hx | hx
          · exact .inr (.inl hx)
          · exact .inr (.inr hx)

/-- C70: without a selection an edit visits all nodes of the document. -/
theorem C70_no_selection (t : Tree Org) (c : Cursor) (hc : c.hasSelection = false) (fromRoot : Bool) :
    ∃ j, job t c fromRoot false = .ok j ∧ j.start = none ∧ j.stop = none ∧ (∃ ns, Visits t j ns) ∧
      ∀ ns, Visits t j ns → Lists false (Descendant t) ns := by
  have hp : Proper t none none := ⟨by simp, by simp, by simp⟩
  refine ⟨whole, by simp [job, hc], rfl, rfl, ?_, ?_⟩
  · obtain ⟨out, ho⟩ := (C33_nodes t none none hp).1
    exact ⟨_, t, out, rfl, ho, rfl⟩
  · rintro ns ⟨x, out, hx, ho, rfl⟩
    cases hx
    have := (C33_nodes t none none hp).2 out ho
    have e : (out.map fun m => (whole.ancestor.path ++ m.1, m.2)) = out := by simp [whole]
    rw [e]
    refine ⟨this.1, fun n => (this.2 n).trans ?_⟩
    constructor
    · rintro ⟨h1, h2, -⟩; exact ⟨h1, h2⟩
    · rintro ⟨h1, h2⟩; exact ⟨h1, h2, by simp [Within]⟩

/-- C70: with `range_from_cursor` and no selection an edit visits the nodes that begin at the cursor or after it, if there
are any. -/
theorem C70_from_cursor_partial (t : Tree Org) (h : Ordered t) (c : Cursor) (hc : c.hasSelection = false) (fromRoot : Bool)
    (hsome : ∃ d p, Descendant t d ∧ Starts d.2 p ∧ c.pos ≤ p) :
    ∃ j, job t c fromRoot true = .ok j ∧ (∃ ns, Visits t j ns) ∧
      ∀ ns, Visits t j ns → ns.Pairwise (fun x y => DocBefore x.1 y.1) ∧ (∀ m ∈ ns, NodeOf t m) ∧
        ∀ m p, Descendant t m → Starts m.2 p → (m ∈ ns ↔ c.pos ≤ p) := by
  obtain ⟨d, ds, hd, d1, d2⟩ := hsome
  obtain ⟨ra, hra, hra'⟩ := C43_find_right t h c.pos
  cases ra with
  | none => exact absurd (hra' d ds hd d1) (by omega)
  | some a =>
  simp only at hra'
  obtain ⟨ha, has, hmin⟩ := hra'
  have hp : Proper t (some a.1) none := ⟨by rintro s ⟨⟩; exact ⟨a.2, ha.1⟩, by simp, by simp⟩
  have hj : job t c fromRoot true = .ok ⟨⟨0, []⟩, some a.1, none, none, none⟩ := by
    simp [job, hc, hra, fromNodes, C32_root, refOf, trail_eq]
  refine ⟨_, hj, ?_, ?_⟩
  · obtain ⟨out, ho⟩ := (C33_nodes t _ none hp).1
    exact ⟨_, t, out, rfl, ho, rfl⟩
  · rintro ns ⟨x, out, hx, ho, rfl⟩
    cases hx
    have := (C33_nodes t _ none hp).2 out ho
    have e : (out.map fun m => (([] : Path) ++ m.1, m.2)) = out := by simp
    rw [e]
    refine ⟨this.1, fun m hm => ((this.2 m).1 hm).1, fun m p hm hp => (this.2 m).trans ?_⟩
    rw [← first_iff h ha has hmin hm.1 hm.2 hp]
    constructor
    · rintro ⟨-, -, h3, -⟩; exact h3 _ rfl
    · intro h3; exact ⟨hm.1, hm.2, fun s hs => by cases hs; exact h3, by simp⟩

/-! ### Where it is not so -/

/-- `{ c <d e> f } g`: a block from 0 to 13 with a note, a chord with two notes, and a note; and a note after it. -/
def exDoc : Tree Org :=
  .node {} [.node ⟨[⟨0, 1⟩], [⟨12, 13⟩]⟩ [.node ⟨[⟨2, 3⟩], []⟩ [],
    .node ⟨[⟨4, 5⟩], [⟨8, 9⟩]⟩ [.node ⟨[⟨5, 6⟩], []⟩ [], .node ⟨[⟨7, 8⟩], []⟩ []], .node ⟨[⟨10, 11⟩], []⟩ []],
    .node ⟨[⟨14, 15⟩], []⟩ []]

theorem exOrdered : Ordered exDoc := ⟨by decide, by decide, headed_of (by decide)⟩

/-- The nodes that are visited, by running the generator for 20 steps. -/
def visited (d : Tree Org) (j : Job) : List Path :=
  match d.get? j.ancestor.path with
  | none => []
  | some x => (runFor nodesResume always 20 true (.init (make x j.st j.en)) []).map fun m => j.ancestor.path ++ m.1

theorem runFor_runs {σ α : Type} (resume : Resume σ α) (dec : List (Item α) → Bool) (k : ℕ) (ok : Bool) (s : σ)
    (hist : List (Item α)) (h : (runFor resume dec k ok s hist).length < k) :
    Runs resume dec ok s hist (runFor resume dec k ok s hist) := by
  induction k generalizing ok s hist with
  | zero => simp at h
  | succ k ih =>
    rw [runFor] at h ⊢
    cases hr : resume s ok with
    | none => exact .done hr
    | some x =>
      obtain ⟨n, s'⟩ := x
      rw [hr] at h
      simp only [List.length_cons] at h
      exact .step hr (ih _ _ _ (by omega))

theorem visits_of (d : Tree Org) (j : Job) (ps : List Path) (h : visited d j = ps) (hl : ps.length < 20)
    (hx : (d.get? j.ancestor.path).isSome = true) :
    ∃ ns, Visits d j ns ∧ ns.map (·.1) = ps ∧ ∀ ns', Visits d j ns' → ns' = ns := by
  obtain ⟨x, hx⟩ := Option.isSome_iff_exists.1 hx
  unfold visited at h
  rw [hx] at h
  simp only at h
  have hr := runFor_runs (nodesResume (α := Org)) always 20 true (.init (make x j.st j.en)) []
    (by rw [← h] at hl; simpa using hl)
  refine ⟨_, ⟨x, _, hx, hr, rfl⟩, by rw [List.map_map]; exact h, ?_⟩
  rintro ns' ⟨x', out, hx', ho, rfl⟩
  rw [hx] at hx'
  cases hx'
  rw [runs_unique ho hr]

/-- An edit of the selection `c` visits the nodes at the places `ps`, in that order. -/
def Edits (d : Tree Org) (c : Cursor) (fromCursor : Bool) (ps : List Path) : Prop :=
  ∃ j ns, job d c false fromCursor = .ok j ∧ Visits d j ns ∧ ns.map (·.1) = ps ∧ ∀ ns', Visits d j ns' → ns' = ns

theorem edits_of (d : Tree Org) (c : Cursor) (b : Bool) (j : Job) (ps : List Path) (hj : job d c false b = .ok j)
    (h : visited d j = ps) (hl : ps.length < 20) (hx : (d.get? j.ancestor.path).isSome = true) : Edits d c b ps := by
  obtain ⟨ns, h1, h2, h3⟩ := visits_of d j ps h hl hx
  exact ⟨j, ns, hj, h1, h2, h3⟩

/-- What `find_descendant_right` and `find_descendant_left` find. -/
macro "finds" : tactic => `(tactic| simp [job, Cursor.hasSelection, findRight, findLeft, walk, lookRight, lookLeft, iterate, number,
  exDoc, Find.pos, headPos, Find.stop, stop.kids, Tree.val, Tree.children, descendants, descendants.go, whole, refOf, fromNodes, C32_root, trail_eq])

/-- C70: when `c <d e>` is selected, the notes in the chord are not visited. -/
theorem C70_last_chord : Edits exDoc ⟨2, 9⟩ false [[0, 0], [0, 1]] :=
  edits_of _ _ _ ⟨⟨0, [0]⟩, some [0], some [1], some 2, some 9⟩ _ (by finds; decide +kernel) (by decide +kernel) (by decide) (by decide +kernel)

/-- C70: when one note is selected, nothing is visited. -/
theorem C70_one_note : Edits exDoc ⟨10, 11⟩ false [] :=
  edits_of _ _ _ ⟨⟨0, [0, 2]⟩, some [], some [], some 10, some 11⟩ _ (by finds; decide +kernel) (by decide +kernel) (by decide) (by decide +kernel)

/-- C70: when the blank between `c` and the chord is selected, the chord is visited and its notes. -/
theorem C70_blank : Edits exDoc ⟨3, 4⟩ false [[0, 1], [0, 1, 0], [0, 1, 1]] :=
  edits_of _ _ _ ⟨⟨0, [0]⟩, some [1], some [0], some 4, some 3⟩ _ (by finds; decide +kernel) (by decide +kernel) (by decide) (by decide +kernel)

/-- C70: when only the opening brace at the begin is selected, all nodes of the document are visited. -/
theorem C70_begin : Edits exDoc ⟨0, 1⟩ false [[0], [0, 0], [0, 1], [0, 1, 0], [0, 1, 1], [0, 2], [1]] :=
  edits_of _ _ _ ⟨⟨0, []⟩, some [0], none, some 0, none⟩ _ (by finds) (by decide +kernel) (by decide) (by decide +kernel)

/-- C70: also when only a line break at the end is selected. -/
theorem C70_end : Edits exDoc ⟨15, 16⟩ false [[0], [0, 0], [0, 1], [0, 1, 0], [0, 1, 1], [0, 2], [1]] :=
  edits_of _ _ _ ⟨⟨0, []⟩, none, some [1], none, some 15⟩ _ (by finds) (by decide +kernel) (by decide) (by decide +kernel)

/-- C70: when the selection begins in the block and goes on to its end, only the first selected node is visited. -/
theorem C70_past_end : Edits exDoc ⟨2, 13⟩ false [[0, 0]] :=
  edits_of _ _ _ ⟨⟨0, [0]⟩, some [0], some [], some 2, some 13⟩ _ (by finds; decide +kernel) (by decide +kernel) (by decide) (by decide +kernel)

/-- C70: with `range_from_cursor` and the cursor at the end, all nodes of the document are visited. -/
theorem C70_cursor_at_end : Edits exDoc ⟨16, 16⟩ true [[0], [0, 0], [0, 1], [0, 1, 0], [0, 1, 1], [0, 2], [1]] :=
  edits_of _ _ _ ⟨⟨0, []⟩, none, none, none, none⟩ _ (by finds) (by decide +kernel) (by decide) (by decide +kernel)

/-! ### Example -/

/-- All nodes below the place. -/
def items (p : Path) : Tree Org → List (Item Org)
  | .node v cs => (p, .node v cs) :: go p 0 cs
where
  /-- The children from an index on. -/
  go (p : Path) (i : ℕ) : List (Tree Org) → List (Item Org)
    | [] => []
    | c :: cs => items (p ++ [i]) c ++ go p (i + 1) cs

theorem mem_items (t : Tree Org) (p q : Path) (n : Tree Org) (h : t.get? q = some n) : (p ++ q, n) ∈ items p t := by
  induction q generalizing t p with
  | nil =>
    cases h
    cases n
    simp [items]
  | cons i q ih =>
    obtain ⟨c, hc, h⟩ := get?_cons h
    cases t with
    | node v cs =>
      have key : ∀ (cs : List (Tree Org)) (k i : ℕ), cs[i]? = some c → (p ++ (k + i) :: q, n) ∈ items.go p k cs := by
        intro cs
        induction cs with
        | nil => simp
        | cons d cs ihc =>
          intro k i hi
          rw [items.go, List.mem_append]
          cases i with
          | zero =>
            simp only [List.getElem?_cons_zero, Option.some.injEq] at hi
            subst hi
            left
            simpa using ih d (p ++ [k]) h
          | succ i =>
            right
            have := ihc (k + 1) i (by simpa using hi)
            rwa [Nat.add_assoc, Nat.add_comm 1 i] at this
      rw [items]
      have := key cs 0 i hc
      rw [Nat.zero_add] at this
      exact List.mem_cons_of_mem _ this

/-- The text is in the selection. -/
def selB (c : Cursor) (n : Item Org) : Bool :=
  match Find.pos n.2, Find.stop n.2 with
  | some p, some e => c.pos ≤ p && e ≤ c.stop
  | _, _ => false

theorem selB_iff {t : Tree Org} (h : Ordered t) (c : Cursor) {n : Item Org} (hn : NodeOf t n) : selB c n = true ↔ Selected c n := by
  unfold selB Selected
  constructor
  · intro hs
    split at hs
    · rename_i p e hp he
      simp only [Bool.and_eq_true, decide_eq_true_eq] at hs
      exact ⟨p, e, ((C43_pos_end t h n hn p e).1).1 hp, ((C43_pos_end t h n hn p e).2).1 he, hs⟩
    · cases hs
  · rintro ⟨p, e, h1, h2, h3⟩
    rw [((C43_pos_end t h n hn p e).1).2 h1, ((C43_pos_end t h n hn p e).2).2 h2]
    simpa using h3

theorem prefix_of {m x : Path} (h : x = m ∨ Above m x) : m <+: x := by
  rcases h with rfl | ⟨i, r, rfl⟩
  · exact List.prefix_rfl
  · exact ⟨i :: r, rfl⟩

theorem mem_root {t : Tree Org} {n : Item Org} (h : NodeOf t n) : n ∈ items [] t := by
  have := mem_items t [] n.1 n.2 h
  simpa using this

/-- `c <d e> f` is selected in `{ c <d e> f } g`: the hypotheses of the theorem. -/
example : (∃ d, Descendant exDoc d ∧ Selected ⟨2, 11⟩ d) ∧ CutsNone exDoc ⟨2, 11⟩ ∧ ¬ InOne exDoc ⟨2, 11⟩ := by
  refine ⟨⟨([0, 0], .node ⟨[⟨2, 3⟩], []⟩ []), ⟨rfl, by simp⟩, 2, 3, ⟨_, _, rfl, rfl⟩, ⟨[], _, rfl, rfl⟩, by decide, by decide⟩, ?_, ?_⟩
  · rintro n p e hn ⟨x, hx, hxn, hs⟩ hp he hle
    have hb : ∀ n ∈ items [] exDoc, ∀ x ∈ items [] exDoc, n.1 <+: x.1 → selB ⟨2, 11⟩ x = true →
        ∀ p ∈ Find.pos n.2, ∀ e ∈ Find.stop n.2, e ≤ 11 → 2 ≤ p := by decide +kernel
    exact hb n (mem_root hn.1) x (mem_root hx) (prefix_of hxn) ((selB_iff exOrdered _ hx).2 hs) p
      (((C43_pos_end exDoc exOrdered n hn.1 p e).1).2 hp) e (((C43_pos_end exDoc exOrdered n hn.1 p e).2).2 he) hle
  · rintro ⟨n, p, hn, hp, hle, hall⟩
    have hb : ∀ n ∈ items [] exDoc, ∀ p ∈ Find.pos n.2, 2 ≤ p → ¬ (n.1 <+: [0, 0] ∧ n.1 <+: [0, 2]) := by decide +kernel
    refine hb n (mem_root hn.1) p (((C43_pos_end exDoc exOrdered n hn.1 p 0).1).2 hp) hle ⟨?_, ?_⟩
    · exact prefix_of (hall ([0, 0], .node ⟨[⟨2, 3⟩], []⟩ []) ⟨rfl, by simp⟩ ⟨2, 3, ⟨_, _, rfl, rfl⟩, ⟨[], _, rfl, rfl⟩, by decide, by decide⟩)
    · exact prefix_of (hall ([0, 2], .node ⟨[⟨10, 11⟩], []⟩ []) ⟨rfl, by simp⟩ ⟨10, 11, ⟨_, _, rfl, rfl⟩, ⟨[], _, rfl, rfl⟩, by decide, by decide⟩)

example : Edits exDoc ⟨2, 11⟩ false [[0, 0], [0, 1], [0, 1, 0], [0, 1, 1], [0, 2]] :=
  edits_of _ _ _ ⟨⟨0, [0]⟩, some [0], some [2], some 2, some 11⟩ _ (by finds; decide +kernel) (by decide +kernel) (by decide) (by decide +kernel)

end Quickly.Cursor
