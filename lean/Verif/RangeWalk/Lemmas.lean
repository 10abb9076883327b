import Verif.RangeWalk.Spec
import Verif.Range.Props2

/-!
# Lemmas on walking with a range
-/

namespace Quickly.RangeWalk

open Quickly.Node Quickly.Node.Spec Quickly.NodeRange Quickly.NodeRange.Spec Quickly.RangeWalk.Spec

variable {α : Type} {t : Tree α} {st en : Option Path}

/-- The levels of a stack belong together, down to the level of the node `b`. -/
def Chain (t : Tree α) (st en : Option Path) (b : Item α) : List (Level α) → Prop
  | [] => False
  | [l] => Fine t st en l ∧ l.node = b ∧ ∀ i, l.index = some i → InR st en l.node.1 i
  | l :: m :: ms => Fine t st en l ∧ (∃ i, m.index = some i ∧ itemAt m.node i = some l.node) ∧
      (∀ i, l.index = some i → InR st en l.node.1 i) ∧ Chain t st en b (m :: ms)

theorem Chain.fine {b : Item α} {ls : List (Level α)} (h : Chain t st en b ls) : ∀ l ∈ ls, Fine t st en l := by
  induction ls with
  | nil => exact h.elim
  | cons l ls ih =>
    cases ls with
    | nil => simpa using h.1
    | cons m ms =>
      intro x hx
      rcases List.mem_cons.mp hx with rfl | hx
      · exact h.1
      · exact ih h.2.2.2 x hx

theorem Chain.head {b : Item α} {l : Level α} {ls : List (Level α)} (h : Chain t st en b (l :: ls)) :
    Fine t st en l ∧ ∀ i, l.index = some i → InR st en l.node.1 i := by
  cases ls with
  | nil => exact ⟨h.1, h.2.2⟩
  | cons m ms => exact ⟨h.1, h.2.2.1⟩

/-- The head of a chain can be at another child of the range. -/
theorem Chain.setIndex {b : Item α} {l : Level α} {ls : List (Level α)} (h : Chain t st en b (l :: ls)) (k : Option ℕ)
    (hk : ∀ i, k = some i → i < l.node.2.children.length ∧ InR st en l.node.1 i) :
    Chain t st en b ({ l with index := k } :: ls) := by
  cases ls with
  | nil => exact ⟨⟨h.1.toOk.withIndex k, fun i hi => (hk i hi).1⟩, h.2.1, fun i hi => (hk i hi).2⟩
  | cons m ms =>
    exact ⟨⟨h.1.toOk.withIndex k, fun i hi => (hk i hi).1⟩, h.2.1, fun i hi => (hk i hi).2, h.2.2.2⟩

/-- A child of the level at the head can be entered. -/
theorem Chain.push {b : Item α} {l c : Level α} {ls : List (Level α)} (h : Chain t st en b (l :: ls)) {i : ℕ}
    (hi : l.index = some i) (hc : itemAt l.node i = some c.node) (hf : Fine t st en c) (hn : c.index = none) :
    Chain t st en b (c :: l :: ls) :=
  ⟨hf, ⟨i, hi, hc⟩, by simp [hn], h⟩

theorem Chain.tail {b : Item α} {l m : Level α} {ms : List (Level α)} (h : Chain t st en b (l :: m :: ms)) :
    Chain t st en b (m :: ms) := h.2.2.2

theorem chain_enter {b : Item α} {ls : List (Level α)} (h : Chain t st en b ls) : Chain t st en b (enter ls) := by
  cases ls with
  | nil => exact h.elim
  | cons l ls =>
    cases hi : l.index with
    | none => simp only [enter, hi]; exact h
    | some i =>
      obtain ⟨hf, -⟩ := h.head
      have hlt := hf.idx i hi
      obtain ⟨c, hc, h1, h2, h3⟩ := ok_child hf.toOk (i := i) (n := (l.node.1 ++ [i], l.node.2.children[i]))
        (itemAt_some.mpr ⟨rfl, by simp [hlt]⟩)
      simp only [enter, hi, hc]
      exact h.push hi (by rw [h2]; exact itemAt_some.mpr ⟨rfl, by simp [hlt]⟩) ⟨h1, by simp [h3]⟩ h3

/-- What comes of a level: children of the range. -/
theorem remain_inR {rev : Bool} {l : Level α} (hl : Fine t st en l) (hi : ∀ i, l.index = some i → InR st en l.node.1 i)
    {n : Item α} : n ∈ remain rev l ↔ ∃ j, itemAt l.node j = some n ∧ InR st en l.node.1 j ∧
      ∀ i, l.index = some i → if rev then j < i else i < j := by
  have hlo : ∀ j, l.start ≤ j ↔ ∀ s, st = some s → ∀ k q, s = l.node.1 ++ k :: q → k ≤ j := fun j => by
    rw [hl.hstart]; exact lo_le
  have hhi : ∀ j, j < l.node.2.children.length →
      ((j : ℤ) ≤ l.stop ↔ ∀ e, en = some e → e ≠ l.node.1 ∧ ∀ k q, e = l.node.1 ++ k :: q → j ≤ k) := fun j h => by
    rw [hl.hstop]; exact le_hi h
  unfold remain
  cases hk : l.index with
  | none =>
    simp only
    rw [mem_slice]
    constructor
    · rintro ⟨j, h1, h2, h3⟩
      exact ⟨j, h3, ⟨(hlo j).mp h1, (hhi j (lt_of_itemAt h3)).mp (by omega)⟩, by simp⟩
    · rintro ⟨j, h3, ⟨h1, h2⟩, -⟩
      have := (hhi j (lt_of_itemAt h3)).mpr h2
      exact ⟨j, (hlo j).mpr h1, by omega, h3⟩
  | some i =>
    have hr := hi i hk
    have a1 := (hlo i).mpr hr.1
    have a2 := (hhi i (hl.idx i hk)).mpr hr.2
    simp only [Option.some.injEq, forall_eq']
    cases rev with
    | true =>
      simp only [if_true]
      rw [mem_slice]
      constructor
      · rintro ⟨j, h1, h2, h3⟩
        exact ⟨j, h3, ⟨(hlo j).mp h1, (hhi j (lt_of_itemAt h3)).mp (by omega)⟩, h2⟩
      · rintro ⟨j, h3, ⟨h1, h2⟩, h4⟩
        exact ⟨j, (hlo j).mpr h1, h4, h3⟩
    | false =>
      simp only [Bool.false_eq_true, if_false]
      rw [mem_slice]
      constructor
      · rintro ⟨j, h1, h2, h3⟩
        exact ⟨j, h3, ⟨(hlo j).mp (by omega), (hhi j (lt_of_itemAt h3)).mp (by omega)⟩, by omega⟩
      · rintro ⟨j, h3, ⟨h1, h2⟩, h4⟩
        have := (hhi j (lt_of_itemAt h3)).mpr h2
        exact ⟨j, by omega, by omega, h3⟩

theorem remain_pairwise (rev : Bool) (l : Level α) : (remain rev l).Pairwise (fun a b => Branch rev a.1 b.1) := by
  unfold remain
  cases l.index with
  | none => exact slice_pairwise ..
  | some i => cases rev <;> simp <;> exact slice_pairwise ..

theorem branch_iff (rev : Bool) (p q : Path) : Branch rev p q ↔ Beyond rev p q := Iff.rfl

/-- Where the walk is: at a child of the level, or at its beginning. -/
def Rest (rev : Bool) (l : Level α) (q : Path) : Prop :=
  match l.index with
  | some i => Beyond rev (l.node.1 ++ [i]) q
  | none => Above l.node.1 q ∨ Beyond rev l.node.1 q

theorem above_self_or (p : Path) (k : ℕ) (r : Path) : Above p (p ++ k :: r) := ⟨k, r, rfl⟩

/-- Beyond a child of `p`: in another child of `p`, or beyond `p`. -/
theorem beyond_snoc (rev : Bool) (p : Path) (i : ℕ) (q : Path) :
    Beyond rev (p ++ [i]) q ↔ (∃ j r, q = p ++ j :: r ∧ if rev then j < i else i < j) ∨ Beyond rev p q := by
  have key : ∀ (p q : Path), (Left (p ++ [i]) q ↔ (∃ j r, q = p ++ j :: r ∧ i < j) ∨ Left p q) ∧
      (Left q (p ++ [i]) ↔ (∃ j r, q = p ++ j :: r ∧ j < i) ∨ Left q p) := by
    intro p
    induction p with
    | nil =>
      intro q
      constructor
      · simp only [List.nil_append]
        rw [left_cons]
        constructor
        · rintro (⟨j, r, rfl, h⟩ | ⟨r, rfl, h⟩)
          · exact .inl ⟨j, r, rfl, h⟩
          · exact absurd h (not_left_nil _)
        · rintro (⟨j, r, rfl, h⟩ | h)
          · exact .inl ⟨j, r, rfl, h⟩
          · exact absurd h (not_left_nil _)
      · simp only [List.nil_append]
        constructor
        · rintro ⟨c, a, b, r, s, rfl, h2, h3⟩
          cases c with
          | nil => simp only [List.nil_append, List.cons.injEq] at h2 ⊢; exact .inl ⟨a, r, ⟨rfl, rfl⟩, by omega⟩
          | cons x c => simp at h2
        · rintro (⟨j, r, rfl, h⟩ | ⟨c, a, b, r, s, -, h2, -⟩)
          · exact ⟨[], j, i, r, [], rfl, rfl, h⟩
          · simp at h2
    | cons x p ih =>
      intro q
      cases q with
      | nil =>
        constructor
        · constructor
          · rintro ⟨c, a, b, r, s, -, h2, -⟩; simp at h2
          · rintro (⟨j, r, h, -⟩ | ⟨c, a, b, r, s, -, h2, -⟩)
            · simp at h
            · simp at h2
        · constructor
          · rintro ⟨c, a, b, r, s, h2, -, -⟩; simp at h2
          · rintro (⟨j, r, h, -⟩ | ⟨c, a, b, r, s, h2, -, -⟩)
            · simp at h
            · simp at h2
      | cons y q =>
        obtain ⟨h1, h2⟩ := ih q
        simp only [List.cons_append]
        rw [left_cons, left_cons, left_cons, left_cons]
        constructor
        · constructor
          · rintro (h | ⟨r, hr, h⟩)
            · exact .inr (.inl h)
            · simp only [List.cons.injEq] at hr
              obtain ⟨rfl, rfl⟩ := hr
              rcases h1.mp h with ⟨j, r, rfl, h5⟩ | h
              · exact .inl ⟨j, r, rfl, h5⟩
              · exact .inr (.inr ⟨_, rfl, h⟩)
          · rintro (⟨j, r, hr, h⟩ | h | ⟨r, hr, h⟩)
            · simp only [List.cons.injEq] at hr
              obtain ⟨rfl, rfl⟩ := hr
              exact .inr ⟨_, rfl, h1.mpr (.inl ⟨j, r, rfl, h⟩)⟩
            · exact .inl h
            · simp only [List.cons.injEq] at hr
              obtain ⟨rfl, rfl⟩ := hr
              exact .inr ⟨_, rfl, h1.mpr (.inr h)⟩
        · constructor
          · rintro (⟨j, r, hr, h⟩ | ⟨r, hr, h⟩)
            · simp only [List.cons.injEq] at hr
              obtain ⟨rfl, rfl⟩ := hr
              exact .inr (.inl ⟨_, _, rfl, h⟩)
            · simp only [List.cons.injEq] at hr
              obtain ⟨rfl, rfl⟩ := hr
              rcases h2.mp h with ⟨j, r, rfl, h5⟩ | h
              · exact .inl ⟨j, r, rfl, h5⟩
              · exact .inr (.inr ⟨_, rfl, h⟩)
          · rintro (⟨j, r, hr, h⟩ | ⟨j, r, hr, h⟩ | ⟨r, hr, h⟩)
            · simp only [List.cons.injEq] at hr
              obtain ⟨rfl, rfl⟩ := hr
              exact .inr ⟨_, rfl, h2.mpr (.inl ⟨j, r, rfl, h⟩)⟩
            · simp only [List.cons.injEq] at hr
              obtain ⟨rfl, rfl⟩ := hr
              exact .inl ⟨_, _, rfl, h⟩
            · simp only [List.cons.injEq] at hr
              obtain ⟨rfl, rfl⟩ := hr
              exact .inr ⟨_, rfl, h2.mpr (.inr h)⟩
  cases rev with
  | true => simpa [Beyond] using (key p q).2
  | false => simpa [Beyond] using (key p q).1

/-- The rest of the walk at a level: in its own children, or beyond its node. -/
theorem rest_iff (rev : Bool) (l : Level α) (q : Path) :
    Rest rev l q ↔ (∃ j r, q = l.node.1 ++ j :: r ∧ ∀ i, l.index = some i → if rev then j < i else i < j) ∨
      Beyond rev l.node.1 q := by
  unfold Rest
  cases l.index with
  | none =>
    simp only [reduceCtorEq, false_implies, implies_true, and_true]
    exact Iff.rfl
  | some i =>
    simp only [Option.some.injEq, forall_eq']
    exact beyond_snoc rev _ i q

theorem remain_desc' {rev : Bool} {l : Level α} (hl : Fine t st en l) (hi : ∀ i, l.index = some i → InR st en l.node.1 i)
    (m : Item α) :
    (∃ w ∈ remain rev l, Desc (K rev st en) w m) ↔ t.get? m.1 = some m.2 ∧ ∃ j r, m.1 = l.node.1 ++ j :: r ∧
      Steps st en l.node.1 (j :: r) ∧ ∀ i, l.index = some i → if rev then j < i else i < j := by
  constructor
  · rintro ⟨w, hw, hd⟩
    obtain ⟨j, h1, h2, h3⟩ := (remain_inR hl hi).mp hw
    obtain ⟨h4, h5⟩ := itemAt_some.mp h1
    obtain ⟨r, h6, h7, h8⟩ := desc_K.mp hd
    refine ⟨?_, j, r, by rw [h6, h4]; simp, steps_cons.mpr ⟨h2, by rw [← h4]; exact h8⟩, h3⟩
    rw [h6, h4, get?_append, get?_snoc' hl.hnode h5]
    exact h7
  · rintro ⟨h1, j, r, h2, h3, h4⟩
    obtain ⟨h5, h6⟩ := steps_cons.mp h3
    rw [h2, get?_append, hl.hnode] at h1
    obtain ⟨c, hc, hr⟩ := get?_cons h1
    have hit : itemAt l.node j = some (l.node.1 ++ [j], c) := itemAt_some.mpr ⟨rfl, hc⟩
    exact ⟨_, (remain_inR hl hi).mpr ⟨j, hit, h5, h4⟩, desc_K.mpr ⟨r, by simp [h2], hr, h6⟩⟩

/-- The place of the innermost node: below the base, with steps in the range. -/
theorem Chain.place {b : Item α} {l : Level α} {ls : List (Level α)} (h : Chain t st en b (l :: ls)) :
    ∃ r, l.node.1 = b.1 ++ r ∧ Steps st en b.1 r := by
  induction ls generalizing l with
  | nil => exact ⟨[], by simp [h.2.1], fun a k c h => by simp at h⟩
  | cons m ms ih =>
    obtain ⟨r, h1, h2⟩ := ih h.tail
    obtain ⟨i, h3, h4⟩ := h.2.1
    have h5 := (h.tail.head).2 i h3
    refine ⟨r ++ [i], by rw [(itemAt_some.mp h4).1, h1]; simp, ?_⟩
    intro a k c hr
    rcases List.eq_nil_or_concat c with rfl | ⟨c', z, rfl⟩
    · have := List.append_inj' hr rfl
      obtain ⟨rfl, h6⟩ := this
      simp only [List.cons.injEq, and_true] at h6
      subst h6
      rw [← h1]; exact h5
    · have hr' : r ++ [i] = (a ++ k :: c') ++ [z] := by simpa using hr
      obtain ⟨h6, -⟩ := List.append_inj' hr' rfl
      exact h2 a k c' h6

/-- What still comes in the walk from a stack, down to the level of the base. -/
theorem chain_desc {rev : Bool} {b : Item α} {l : Level α} {ls : List (Level α)} (h : Chain t st en b (l :: ls)) (m : Item α) :
    (∃ w ∈ fv rev (l :: ls), Desc (K rev st en) w m) ↔
      t.get? m.1 = some m.2 ∧ (∃ r, m.1 = b.1 ++ r ∧ r ≠ [] ∧ Steps st en b.1 r) ∧ Rest rev l m.1 := by
  induction ls generalizing l with
  | nil =>
    obtain ⟨h1, h2, h3⟩ := h
    simp only [fv, List.map_cons, List.map_nil, List.flatten_cons, List.flatten_nil, List.append_nil]
    rw [remain_desc' h1 h3, rest_iff, ← h2]
    constructor
    · rintro ⟨k1, j, r, k2, k3, k4⟩
      exact ⟨k1, ⟨j :: r, k2, by simp, k3⟩, .inl ⟨j, r, k2, k4⟩⟩
    · rintro ⟨k1, ⟨r, k2, k3, k4⟩, k5⟩
      refine ⟨k1, ?_⟩
      rcases k5 with ⟨j, r', k6, k7⟩ | k5
      · have : r = j :: r' := by rw [k2] at k6; exact List.append_cancel_left k6
        subst this
        exact ⟨j, r', k2, k4, k7⟩
      · exfalso
        have : AboveOrSelf l.node.1 m.1 := ⟨r, k2⟩
        rw [k2] at k5
        have aux : ∀ p r : Path, ¬ Left p (p ++ r) ∧ ¬ Left (p ++ r) p := by
          intro p r
          constructor
          · intro hl
            have := Left.append hl r []
            simp only [List.append_nil] at this
            exact left_irrefl _ this
          · intro hl
            have := Left.append hl [] r
            simp only [List.append_nil] at this
            exact left_irrefl _ this
        cases rev
        · exact (aux _ _).1 k5
        · exact (aux _ _).2 k5
  | cons m' ms ih =>
    have hf := h.head
    obtain ⟨i, h3, h4⟩ := h.2.1
    have hp := (itemAt_some.mp h4).1
    have hrest : Rest rev m' m.1 ↔ Beyond rev l.node.1 m.1 := by
      unfold Rest; simp only [h3, ← hp]
    rw [fv_cons]
    simp only [List.mem_append, or_and_right, exists_or]
    rw [remain_desc' hf.1 hf.2, ih h.tail, hrest, rest_iff]
    obtain ⟨r0, p1, p2⟩ := h.place
    constructor
    · rintro (⟨k1, j, r, k2, k3, k4⟩ | ⟨k1, k2, k3⟩)
      · refine ⟨k1, ⟨r0 ++ j :: r, by rw [k2, p1]; simp, by simp, ?_⟩, .inl ⟨j, r, k2, k4⟩⟩
        intro a k c hr
        rcases List.append_eq_append_iff.mp hr with ⟨a', rfl, hr'⟩ | ⟨c', rfl, hb⟩
        · have := k3 a' k c hr'
          rw [p1, List.append_assoc] at this
          exact this
        · cases c' with
          | nil =>
            simp only [List.nil_append] at hb
            have := k3 [] k c (by simpa using hb.symm)
            rw [p1] at this
            simpa using this
          | cons x c' =>
            simp only [List.cons_append, List.cons.injEq] at hb
            obtain ⟨rfl, hb⟩ := hb
            exact p2 a k c' rfl
      · exact ⟨k1, k2, .inr k3⟩
    · rintro ⟨k1, ⟨r, k2, k3, k4⟩, ⟨j, r', k5, k6⟩ | k5⟩
      · left
        refine ⟨k1, j, r', k5, ?_, k6⟩
        have hr : r = r0 ++ j :: r' := by
          rw [k5, p1, List.append_assoc] at k2
          exact (List.append_cancel_left k2).symm
        intro a k c hr2
        have := k4 (r0 ++ a) k c (by rw [hr, hr2]; simp)
        rw [p1, List.append_assoc]
        exact this
      · exact .inr ⟨k1, ⟨r, k2, k3, k4⟩, k5⟩

theorem chain_pairwise {rev : Bool} {b : Item α} {l : Level α} {ls : List (Level α)} (h : Chain t st en b (l :: ls)) :
    (fv rev (l :: ls)).Pairwise (fun a b => Branch rev a.1 b.1) := by
  induction ls generalizing l with
  | nil =>
    simp only [fv, List.map_cons, List.map_nil, List.flatten_cons, List.flatten_nil, List.append_nil]
    exact remain_pairwise rev l
  | cons m ms ih =>
    rw [fv_cons, List.pairwise_append]
    refine ⟨remain_pairwise rev l, ih h.tail, ?_⟩
    intro x hx y hy
    obtain ⟨j, h1, -, -⟩ := (remain_inR h.head.1 h.head.2).mp hx
    obtain ⟨i, h3, h4⟩ := h.2.1
    have hy2 := ((chain_desc (rev := rev) h.tail y).mp ⟨y, hy, .refl _⟩).2.2
    have : Branch rev l.node.1 y.1 := by
      unfold Rest at hy2; simp only [h3, ← (itemAt_some.mp h4).1] at hy2; exact hy2
    have := this.append [j] []
    rw [(itemAt_some.mp h1).1]
    simpa using this

end Quickly.RangeWalk
