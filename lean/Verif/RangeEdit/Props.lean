import Verif.RangeEdit.Spec
import Verif.Node.Lemmas

/-!
# C60: changing a tree through a range while iterating over it
-/

namespace Quickly.RangeEdit

open Spec

variable {β : Type}

/-! ## Iterating -/

theorem item_nat {xs : List β} {i : ℤ} (h0 : 0 ≤ i) (h1 : i < xs.length) :
    ∃ x, xs[i.toNat]? = some x ∧ item xs i = .ok x := by
  have hk : i.toNat < xs.length := by omega
  refine ⟨xs[i.toNat], List.getElem?_eq_getElem hk, ?_⟩
  have hi : Heap.itemIndex xs.length i = some i.toNat := by
    simp only [Heap.itemIndex]
    rw [if_neg (by omega : ¬ i < 0), if_pos ⟨h0, h1⟩]
  simp only [item, hi, List.getElem?_eq_getElem hk]

theorem yields_aux (n : ℕ) : ∀ l : Level β, (l.stop + 1 - l.nextIndex).toNat = n → 0 ≤ l.nextIndex →
    l.stop < l.nodes.length →
    Yields l ((l.nodes.take (l.stop + 1).toNat).drop l.nextIndex.toNat) := by
  induction n with
  | zero =>
    intro l hn h0 h1
    rw [List.drop_eq_nil_of_le (by simp only [List.length_take]; omega)]
    exact .stop (by rw [Level.next, if_pos (by omega)])
  | succ n ih =>
    intro l hn h0 h1
    obtain ⟨x, hx, hi⟩ := item_nat (xs := l.nodes) h0 (by omega)
    have hnext : l.next = .ok (some (x, { l with index := l.nextIndex })) := by
      rw [Level.next, if_neg (by omega), hi]
    have h2 : ({ l with index := l.nextIndex } : Level β).nextIndex = l.nextIndex + 1 := by
      show (if l.nextIndex = -1 then _ else _) = _
      rw [if_neg (by omega)]
    have h3 := ih { l with index := l.nextIndex } (by rw [h2]; simp only; omega) (by rw [h2]; omega) h1
    rw [h2] at h3
    have hlt : l.nextIndex.toNat < (l.nodes.take (l.stop + 1).toNat).length := by
      simp only [List.length_take]; omega
    rw [List.drop_eq_getElem_cons hlt]
    have hx' : (l.nodes.take (l.stop + 1).toNat)[l.nextIndex.toNat] = x := by
      rw [List.getElem_take]
      rw [List.getElem?_eq_some_iff] at hx
      exact hx.2
    rw [hx']
    refine .node hnext ?_
    simpa [show (l.nextIndex + 1).toNat = l.nextIndex.toNat + 1 by omega] using h3

theorem yields_valid {l : Level β} (h : Valid l) :
    Yields l ((l.nodes.take (l.stop + 1).toNat).drop l.nextIndex.toNat) := by
  have h1 := h.start; have h2 := h.index
  refine yields_aux _ l rfl ?_ h.stop_lt
  simp only [Level.nextIndex]; split <;> omega

theorem yields_unique {l : Level β} {xs ys : List β} (h1 : Yields l xs) (h2 : Yields l ys) : xs = ys := by
  induction h1 generalizing ys with
  | stop h =>
    cases h2 with
    | stop _ => rfl
    | node h' _ => rw [h] at h'; cases h'
  | node h _ ih =>
    cases h2 with
    | stop h' => rw [h] at h'; cases h'
    | node h' h'' =>
      rw [h] at h'
      cases h'
      rw [ih h'']

theorem yields_eq {l : Level β} {xs : List β} (h : Valid l) (hy : Yields l xs) :
    xs = (l.nodes.take (l.stop + 1).toNat).drop l.nextIndex.toNat :=
  yields_unique hy (yields_valid h)

/-! ## Slices -/

theorem editOf_nat {len a b n : ℕ} (hab : a ≤ b) (hb : b ≤ len) :
    editOf len (some a) (some b) n = ⟨a, (b : ℤ) - a, n, (len : ℤ) + n - (b - a)⟩ := by
  simp only [editOf, indices, Heap.clamp]
  rw [if_neg (by omega), if_neg (by omega)]
  congr 1 <;> simp <;> omega

theorem bounds_nat {len a b : ℕ} (hab : a ≤ b) (hb : b ≤ len) :
    Heap.sliceBounds len (some a) (some b) = (a, b) := by
  simp only [Heap.sliceBounds, Heap.clamp]
  rw [if_neg (by omega), if_neg (by omega)]
  simp; omega

theorem setSlice_nodes {l : Level β} {a b : ℕ} (hab : a ≤ b) (hb : b ≤ l.nodes.length) (v : List β) :
    (setSlice l (some a) (some b) v).nodes = splice l.nodes a b v := by
  simp only [setSlice, bounds_nat hab hb, splice]

theorem setSlice_eq {l : Level β} {a b : ℕ} (hab : a ≤ b) (hb : b ≤ l.nodes.length) (v : List β)
    (h0 : l.nodes.length + v.length ≠ b - a) :
    setSlice l (some a) (some b) v =
      let e : Edit := ⟨a, (b : ℤ) - a, v.length, (l.nodes.length : ℤ) + v.length - (b - a)⟩
      { l with
        nodes := splice l.nodes a b v
        start := e.move l.start, st := newSt l e
        stop := newStop l e, en := newEn l e
        index := e.move l.index } := by
  simp only [setSlice, bounds_nat hab hb, editOf_nat hab hb, adjust]
  rw [if_neg (by omega)]
  simp only [splice]

/-- An index that is not touched by the edit. -/
def moved (a b n : ℕ) (i : ℤ) : ℤ := if i < a then i else i + (n - (b - a))

theorem move_eq {a b n : ℕ} {len : ℤ} {i : ℤ} (hab : a ≤ b) (h : i < a ∨ b ≤ i) :
    Edit.move ⟨a, (b : ℤ) - a, n, len⟩ i = moved a b n i := by
  simp only [Edit.move, Edit.hits, Edit.before, moved, decide_eq_true_eq]
  split
  · omega
  · split
    · rw [if_neg (by omega)]
    · rw [if_pos (by omega)]

theorem newStop_eq {l : Level β} {a b n : ℕ} {len : ℤ} (hab : a ≤ b) (h : l.stop < a ∨ b ≤ l.stop)
    (hs : 0 ≤ l.stop) :
    newStop l ⟨a, (b : ℤ) - a, n, len⟩ = moved a b n l.stop := by
  simp only [newStop]
  split
  · rw [move_eq hab h]
  · rw [if_neg (by omega)]
    simp only [moved]; rw [if_pos (by omega)]

theorem splice_length (xs : List β) {a b : ℕ} (v : List β) (hab : a ≤ b) (hb : b ≤ xs.length) :
    (splice xs a b v).length = xs.length + v.length - (b - a) := by
  simp only [splice, List.length_append, List.length_take, List.length_drop]; omega

theorem splice_getElem? (xs : List β) {a b : ℕ} (v : List β) (hab : a ≤ b) (hb : b ≤ xs.length) (k : ℕ) :
    (splice xs a b v)[k]? =
      if k < a then xs[k]? else if k < a + v.length then v[k - a]? else xs[k + b - a - v.length]? := by
  simp only [splice, List.append_assoc]
  rw [List.getElem?_append]
  simp only [List.length_take]
  rw [show min a xs.length = a by omega]
  split
  · rw [List.getElem?_take]; simp [*]
  · rw [List.getElem?_append]
    split
    · rw [if_pos (by omega)]
    · rw [if_neg (by omega), List.getElem?_drop]
      congr 1; omega

/-- What an untouched index leads to is the same item. -/
theorem splice_moved (xs : List β) {a b : ℕ} (v : List β) (hab : a ≤ b) (hb : b ≤ xs.length)
    {i : ℤ} (h0 : 0 ≤ i) (h : i < a ∨ b ≤ i) :
    (splice xs a b v)[(moved a b v.length i).toNat]? = xs[i.toNat]? := by
  rw [splice_getElem? xs v hab hb]
  rcases h with h | h
  · have hm : moved a b v.length i = i := by simp only [moved]; rw [if_pos h]
    rw [hm, if_pos (by omega)]
  · have hm : moved a b v.length i = i + (v.length - (b - a)) := by
      simp only [moved]; rw [if_neg (by omega)]
    rw [hm, if_neg (by omega), if_neg (by omega)]
    congr 1; omega

/-! ## C60 -/

/-- C60: `range[a:b] = values` changes the children of the node the range iterates
over as it would for a list. -/
theorem C60_nodes (l : Level β) (i j : Option ℤ) (values : List β) :
    (setSlice l i j values).nodes =
      splice l.nodes (Heap.sliceBounds l.nodes.length i j).1 (Heap.sliceBounds l.nodes.length i j).2 values := rfl

/-- A slice can be written with indices that are not negative, as the theorems below do. -/
theorem C60_slices (l : Level β) (i j : Option ℤ) (values : List β)
    (h : (indices l.nodes.length i j).1 ≤ (indices l.nodes.length i j).2) :
    let (a, b) := Heap.sliceBounds l.nodes.length i j
    a ≤ b ∧ b ≤ l.nodes.length ∧ setSlice l i j values = setSlice l (some a) (some b) values := by
  obtain ⟨a, b, hb, hab, hlen, he⟩ : ∃ a b : ℕ, Heap.sliceBounds l.nodes.length i j = (a, b) ∧ a ≤ b ∧
      b ≤ l.nodes.length ∧ indices l.nodes.length i j = ((a : ℤ), (b : ℤ)) := by
    have hc : ∀ i : ℤ, (i < 0 → i + l.nodes.length < 0 ∨ Heap.clamp l.nodes.length i ≤ l.nodes.length) := by
      intro i hi; simp only [Heap.clamp]; rw [if_pos hi]; omega
    have hcl : ∀ i : ℤ, Heap.clamp l.nodes.length i ≤ l.nodes.length := by
      intro i; simp only [Heap.clamp]; split <;> omega
    cases i with
    | none =>
      cases j with
      | none => exact ⟨0, l.nodes.length, by simp [Heap.sliceBounds], by omega, by omega, by simp [indices]⟩
      | some j => exact ⟨0, Heap.clamp l.nodes.length j, by simp [Heap.sliceBounds], by omega, hcl j, by simp [indices]⟩
    | some i =>
      have := hcl i
      cases j with
      | none =>
        exact ⟨Heap.clamp l.nodes.length i, l.nodes.length, by simp [Heap.sliceBounds]; omega, by omega, by omega, by simp [indices]⟩
      | some j =>
        have := hcl j
        simp only [indices, Int.ofNat_le] at h
        exact ⟨Heap.clamp l.nodes.length i, Heap.clamp l.nodes.length j, by simp [Heap.sliceBounds]; omega, h, hcl j, by simp [indices]⟩
  rw [hb]
  refine ⟨hab, hlen, ?_⟩
  simp only [setSlice, hb, bounds_nat hab hlen, editOf, he]
  rw [show indices l.nodes.length (some (a : ℤ)) (some (b : ℤ)) = ((a : ℤ), (b : ℤ)) by
    simp only [indices, Heap.clamp]
    rw [if_neg (by omega), if_neg (by omega)]
    simp; omega]

theorem yields_of {l : Level β} {nx : ℤ} (hn : l.nextIndex = nx) (h0 : 0 ≤ nx) (hs : l.stop < l.nodes.length)
    {xs : List β} (hx : (l.nodes.take (l.stop + 1).toNat).drop nx.toNat = xs) : Yields l xs := by
  rw [← hx, ← hn]
  exact yields_aux _ l rfl (by omega) hs

theorem moved_lt {a b n : ℕ} {i : ℤ} (h : i < a) : moved a b n i = i := by
  simp only [moved]; rw [if_pos h]

theorem moved_ge {a b n : ℕ} {i : ℤ} (h : (a : ℤ) ≤ i) : moved a b n i = i + (n - (b - a)) := by
  simp only [moved]; rw [if_neg (by omega)]

/-- C60: a change before the current node does not affect the iteration: the
nodes that were to come still come, and the current node is the same. -/
theorem C60_behind {l : Level β} {a b : ℕ} (hl : Valid l) (hab : a ≤ b) (hb : (b : ℤ) ≤ l.index)
    (hs : l.index ≤ l.stop) {values xs : List β} (h : Yields l xs) :
    Yields (setSlice l (some a) (some b) values) xs ∧
      item (setSlice l (some a) (some b) values).nodes (setSlice l (some a) (some b) values).index =
        item l.nodes l.index := by
  have hlt := hl.index_lt
  have hst := hl.stop_lt
  have hbl : b ≤ l.nodes.length := by omega
  rw [yields_eq hl h]
  clear h
  have hlen := splice_length l.nodes values hab hbl
  rw [setSlice_eq hab hbl values (by omega)]
  simp only
  rw [newStop_eq hab (by omega) (by omega), move_eq (i := l.index) hab (by omega),
    moved_ge (i := l.index) (by omega), moved_ge (i := l.stop) (by omega)]
  have hn : l.nextIndex = l.index + 1 := by simp only [Level.nextIndex]; rw [if_neg (by omega)]
  constructor
  · refine yields_of (nx := l.index + (values.length - (b - a)) + 1) ?_ (by omega) (by simp only; rw [hlen]; omega) ?_
    · simp only [Level.nextIndex]; rw [if_neg (by omega)]
    · apply List.ext_getElem?
      intro k
      simp only [List.getElem?_drop, List.getElem?_take, hn]
      rw [splice_getElem? l.nodes values hab hbl]
      by_cases hk : (l.index + 1).toNat + k < (l.stop + 1).toNat
      · rw [if_pos hk, if_pos (by omega), if_neg (by omega), if_neg (by omega)]
        congr 1; omega
      · rw [if_neg hk, if_neg (by omega)]
  · have h1 := item_nat (xs := l.nodes) (i := l.index) (by omega) (by omega)
    have h2 := item_nat (xs := splice l.nodes a b values) (i := l.index + (values.length - (b - a)))
      (by omega) (by rw [hlen]; omega)
    obtain ⟨x, hx, hx'⟩ := h1
    obtain ⟨y, hy, hy'⟩ := h2
    rw [← moved_ge (a := a) (b := b) (n := values.length) (i := l.index) (by omega),
      splice_moved l.nodes values hab hbl (by omega) (by omega), hx] at hy
    rw [hx', hy']
    simpa using hy.symm

/-- C60: a change after the current node and within the range: the new nodes come in
the place of those they replace, when it does not reach the last node of the range. -/
theorem C60_ahead_partial {l : Level β} {a b : ℕ} (hl : Valid l) (hab : a ≤ b) (ha : l.index < a)
    (hst : l.start < a) (hb : (b : ℤ) ≤ l.stop) {values xs : List β} (h : Yields l xs) :
    Yields (setSlice l (some a) (some b) values)
      (splice xs (a - l.nextIndex.toNat) (b - l.nextIndex.toNat) values) := by
  have hlt := hl.index_lt
  have hi := hl.index
  have h0 := hl.start
  have hst' := hl.stop_lt
  have hbl : b ≤ l.nodes.length := by omega
  rw [yields_eq hl h]
  clear h
  have hlen := splice_length l.nodes values hab hbl
  have hn0 : 0 ≤ l.nextIndex ∧ l.nextIndex ≤ a := by
    simp only [Level.nextIndex]; split <;> omega
  rw [setSlice_eq hab hbl values (by omega)]
  simp only
  rw [newStop_eq hab (by omega) (by omega), move_eq (i := l.index) hab (by omega),
    move_eq (i := l.start) hab (by omega), moved_lt (i := l.start) hst,
    moved_lt (i := l.index) ha, moved_ge (i := l.stop) (by omega)]
  refine yields_of (nx := l.nextIndex) ?_ (by omega) (by simp only; rw [hlen]; omega) ?_
  · rfl
  apply List.ext_getElem?
  intro k
  have hW : ((l.nodes.take (l.stop + 1).toNat).drop l.nextIndex.toNat).length = (l.stop + 1 - l.nextIndex).toNat := by
    simp only [List.length_drop, List.length_take]; omega
  rw [splice_getElem? _ values (by omega) (by rw [hW]; omega)]
  simp only [List.getElem?_drop, List.getElem?_take]
  rw [splice_getElem? l.nodes values hab hbl]
  by_cases h1 : k < a - l.nextIndex.toNat
  · rw [if_pos h1, if_pos (by omega), if_pos (by omega), if_pos (by omega)]
  · rw [if_neg h1]
    by_cases h2 : k < a - l.nextIndex.toNat + values.length
    · rw [if_pos h2, if_pos (by omega), if_neg (by omega), if_pos (by omega)]
      congr 1; omega
    · rw [if_neg h2]
      by_cases h3 : l.nextIndex.toNat + k < (l.stop + (values.length - (b - a)) + 1).toNat
      · rw [if_pos h3, if_neg (by omega), if_neg (by omega), if_pos (by omega)]
        congr 1; omega
      · rw [if_neg h3, if_neg (by omega)]

/-- C60: a change after the end of the range does not affect the iteration. -/
theorem C60_beyond {l : Level β} {a b : ℕ} (hl : Valid l) (hab : a ≤ b) (hb : b ≤ l.nodes.length)
    (ha : l.stop < a) (h0 : 0 ≤ l.stop) (hi : l.index ≤ l.stop) (hs : l.start ≤ l.stop)
    {values xs : List β} (h : Yields l xs) :
    Yields (setSlice l (some a) (some b) values) xs := by
  have hi' := hl.index
  have h1 := hl.start
  have hst' := hl.stop_lt
  rw [yields_eq hl h]
  clear h
  have hlen := splice_length l.nodes values hab hb
  have hn0 : 0 ≤ l.nextIndex := by simp only [Level.nextIndex]; split <;> omega
  rw [setSlice_eq hab hb values (by omega)]
  simp only
  rw [newStop_eq hab (by omega) (by omega), move_eq (i := l.index) hab (by omega),
    move_eq (i := l.start) hab (by omega), moved_lt (i := l.start) (by omega),
    moved_lt (i := l.index) (by omega), moved_lt (i := l.stop) (by omega)]
  refine yields_of (nx := l.nextIndex) ?_ hn0 (by simp only; rw [hlen]; omega) ?_
  · rfl
  apply List.ext_getElem?
  intro k
  simp only [List.getElem?_drop, List.getElem?_take]
  rw [splice_getElem? l.nodes values hab hb]
  by_cases hk : l.nextIndex.toNat + k < (l.stop + 1).toNat
  · rw [if_pos hk, if_pos hk, if_pos (by omega)]
  · rw [if_neg hk, if_neg hk]

/-- C60: a change before the start of the range, when the iteration has not begun,
does not change what comes. -/
theorem C60_before_start {l : Level β} {a b : ℕ} (hl : Valid l) (hab : a ≤ b) (hb : (b : ℤ) ≤ l.start)
    (hi : l.index = -1) (hs : l.start ≤ l.stop) {values xs : List β} (h : Yields l xs) :
    Yields (setSlice l (some a) (some b) values) xs := by
  have hst := hl.stop_lt
  have hbl : b ≤ l.nodes.length := by omega
  rw [yields_eq hl h]
  clear h
  have hlen := splice_length l.nodes values hab hbl
  rw [setSlice_eq hab hbl values (by omega)]
  simp only
  rw [newStop_eq hab (by omega) (by omega), move_eq (i := l.index) hab (by omega),
    move_eq (i := l.start) hab (by omega), moved_ge (i := l.start) (by omega), moved_lt (i := l.index) (by omega),
    moved_ge (i := l.stop) (by omega)]
  have hn : l.nextIndex = l.start := by simp only [Level.nextIndex]; rw [if_pos hi]
  refine yields_of (nx := l.start + (values.length - (b - a))) ?_ (by omega) (by simp only; rw [hlen]; omega) ?_
  · simp only [Level.nextIndex]; rw [if_pos hi]
  · apply List.ext_getElem?
    intro k
    simp only [List.getElem?_drop, List.getElem?_take, hn]
    rw [splice_getElem? l.nodes values hab hbl]
    by_cases hk : l.start.toNat + k < (l.stop + 1).toNat
    · rw [if_pos hk, if_pos (by omega), if_neg (by omega), if_neg (by omega)]
      congr 1; omega
    · rw [if_neg hk, if_neg (by omega)]

/-- C60: the boundaries of the range stay on the same nodes, when those are not replaced. -/
theorem C60_boundaries_partial {l : Level β} {a b : ℕ} (hl : Valid l) (hab : a ≤ b) (hb : b ≤ l.nodes.length)
    (values : List β) :
    (l.start < l.nodes.length → (l.start < a ∨ b ≤ l.start) →
      item (setSlice l (some a) (some b) values).nodes (setSlice l (some a) (some b) values).start =
        item l.nodes l.start) ∧
    (0 ≤ l.stop → (l.stop < a ∨ b ≤ l.stop) →
      item (setSlice l (some a) (some b) values).nodes (setSlice l (some a) (some b) values).stop =
        item l.nodes l.stop) := by
  have hs := hl.start
  have hst := hl.stop_lt
  have hlen := splice_length l.nodes values hab hb
  have key : ∀ i : ℤ, 0 ≤ i → i < l.nodes.length → (i < a ∨ b ≤ i) →
      item (splice l.nodes a b values) (moved a b values.length i) = item l.nodes i := by
    intro i h0 h1 h2
    have hm : 0 ≤ moved a b values.length i ∧ moved a b values.length i < (splice l.nodes a b values).length := by
      rw [hlen]
      rcases h2 with h2 | h2
      · rw [moved_lt h2]; omega
      · rw [moved_ge (by omega)]; omega
    obtain ⟨x, hx, hx'⟩ := item_nat (xs := l.nodes) h0 h1
    obtain ⟨y, hy, hy'⟩ := item_nat (xs := splice l.nodes a b values) hm.1 hm.2
    rw [splice_moved l.nodes values hab hb h0 h2, hx] at hy
    rw [hx', hy']
    simpa using hy.symm
  constructor
  · intro h1 h2
    rw [setSlice_eq hab hb values (by omega)]
    simp only
    rw [move_eq hab h2]
    exact key _ hs h1 h2
  · intro h1 h2
    rw [setSlice_eq hab hb values (by omega)]
    simp only
    rw [newStop_eq hab h2 h1]
    exact key _ h1 hst h2

theorem adjusts_of {l : Level β} (trail : Option (List ℤ)) (i : ℤ)
    (h : ∃ s, trail = some s ∧ s[l.depth]? = some i) : adjusts l.depth trail = true := by
  obtain ⟨s, rfl, h2⟩ := h
  have : l.depth < s.length := by
    rw [List.getElem?_eq_some_iff] at h2
    exact h2.1
  cases s with
  | nil => simp at this
  | cons x s => simp only [adjusts, truthy, Option.getD_some, Bool.true_and, decide_eq_true_eq]; exact this

theorem newSt_eq {l : Level β} {a b n : ℕ} {len : ℤ} (hab : a ≤ b) {s : List ℤ} (hs : l.st = some s)
    (hd : s[l.depth]? = some l.start) (h : l.start < a ∨ b ≤ l.start) :
    newSt l ⟨a, (b : ℤ) - a, n, len⟩ = some (s.set l.depth (moved a b n l.start)) := by
  simp only [newSt]
  rw [if_pos (adjusts_of l.st l.start ⟨s, hs, hd⟩), move_eq hab h]
  have hh : Edit.hits ⟨a, (b : ℤ) - a, n, len⟩ l.start = false := by
    simp only [Edit.hits, decide_eq_false_iff_not]; omega
  rw [hh, if_neg (by simp)]
  split
  · rw [hs]; rfl
  · next hb =>
    have : l.start < a := by
      simp only [Edit.before, decide_eq_true_eq] at hb; omega
    rw [moved_lt this, hs]
    congr 1
    rw [List.getElem?_eq_some_iff] at hd
    obtain ⟨hd, he⟩ := hd
    rw [← he, List.set_getElem_self]

theorem newEn_eq {l : Level β} {a b n : ℕ} {len : ℤ} (hab : a ≤ b) {s : List ℤ} (hs : l.en = some s)
    (hd : s[l.depth]? = some l.stop) (h : l.stop < a ∨ b ≤ l.stop) :
    newEn l ⟨a, (b : ℤ) - a, n, len⟩ = some (s.set l.depth (moved a b n l.stop)) := by
  simp only [newEn]
  rw [if_pos (adjusts_of l.en l.stop ⟨s, hs, hd⟩), move_eq hab h]
  have hh : Edit.hits ⟨a, (b : ℤ) - a, n, len⟩ l.stop = false := by
    simp only [Edit.hits, decide_eq_false_iff_not]; omega
  rw [hh, if_neg (by simp)]
  split
  · rw [hs]; rfl
  · next hb =>
    have : l.stop < a := by
      simp only [Edit.before, decide_eq_true_eq] at hb; omega
    rw [moved_lt this, hs]
    congr 1
    rw [List.getElem?_eq_some_iff] at hd
    obtain ⟨hd, he⟩ := hd
    rw [← he, List.set_getElem_self]

/-! ### The start node and the end node in the tree -/

open Quickly.Node in
/-- The tree after the children of the node at a place were changed. -/
def editTree {α : Type} : Path → (List (Tree α) → List (Tree α)) → Tree α → Tree α
  | [], f, t => .node t.val (f t.children)
  | i :: p, f, t => .node t.val (t.children.modify i (editTree p f))

open Quickly.Node in
theorem editTree_get? {α : Type} (f : List (Tree α) → List (Tree α)) (p q : Path) (i : ℕ) (t u : Tree α)
    (h : t.get? p = some u) :
    (editTree p f t).get? (p ++ i :: q) = ((f u.children)[i]?).bind (·.get? q) := by
  induction p generalizing t with
  | nil =>
    simp only [Tree.get?, Option.some.injEq] at h
    subst h
    show (match (f t.children)[i]? with | some c => c.get? q | none => none) = _
    cases (f t.children)[i]? <;> rfl
  | cons k p ih =>
    simp only [Tree.get?] at h
    cases hc : t.children[k]? with
    | none => rw [hc] at h; simp at h
    | some c =>
      rw [hc] at h
      simp only at h
      simp only [List.cons_append, editTree, Tree.get?, Tree.children, List.getElem?_modify_eq]
      cases t with
      | node v cs =>
        simp only [Tree.children] at hc
        simp only [hc, Option.map_some, Option.map_eq_map]
        exact ih c h

/-- A place as the trail the code has. -/
def trailOf (p : Node.Path) : List ℤ := p.map Int.ofNat

open Quickly.Node in
/-- C60: the start trail still leads to the same start node in the changed tree, when the
node it goes through is not replaced.  The range iterates over the children of the
node at `p`; the start node is at `p ++ i :: rest`. -/
theorem C60_start_node_partial {α : Type} (t u : Tree α) (p rest : Path) (i : ℕ) (hu : t.get? p = some u)
    (l : Level (Tree α)) (hn : l.nodes = u.children) (hd : l.depth = p.length)
    (hst : l.st = some (trailOf (p ++ i :: rest))) (hi : l.start = i) {a b : ℕ} (hab : a ≤ b)
    (hb : b ≤ u.children.length) (hlt : i < u.children.length) (h : i < a ∨ b ≤ i) (values : List (Tree α)) :
    ∃ q, (setSlice l (some a) (some b) values).st = some (trailOf q) ∧
      (editTree p (fun cs => splice cs a b values) t).get? q = t.get? (p ++ i :: rest) := by
  have hdd : (trailOf (p ++ i :: rest))[l.depth]? = some l.start := by
    simp [trailOf, hd, hi]
  have hm : ∃ j : ℕ, moved a b values.length l.start = j := by
    rw [hi]
    rcases h with h | h
    · exact ⟨i, moved_lt (by omega)⟩
    · exact ⟨((i : ℤ) + (values.length - (b - a))).toNat, by rw [moved_ge (by omega)]; omega⟩
  obtain ⟨j, hj⟩ := hm
  refine ⟨p ++ j :: rest, ?_, ?_⟩
  · rw [setSlice_eq hab (by rw [hn]; exact hb) values (by rw [hn]; omega)]
    simp only
    rw [newSt_eq hab hst hdd (by omega), hj]
    simp [trailOf, hd, List.set_append]
  · rw [editTree_get? _ p rest j t u hu, Node.get?_append, hu]
    simp only [Option.bind_some, Tree.get?]
    have := splice_moved u.children values hab hb (i := l.start) (by omega) (by omega)
    rw [hj, hi] at this
    simp only [Int.toNat_natCast] at this
    rw [this]
    cases u.children[i]? <;> rfl

open Quickly.Node in
/-- C60: the same for the end node. -/
theorem C60_end_node_partial {α : Type} (t u : Tree α) (p rest : Path) (i : ℕ) (hu : t.get? p = some u)
    (l : Level (Tree α)) (hn : l.nodes = u.children) (hd : l.depth = p.length)
    (hst : l.en = some (trailOf (p ++ i :: rest))) (hi : l.stop = i) {a b : ℕ} (hab : a ≤ b)
    (hb : b ≤ u.children.length) (hlt : i < u.children.length) (h : i < a ∨ b ≤ i) (values : List (Tree α)) :
    ∃ q, (setSlice l (some a) (some b) values).en = some (trailOf q) ∧
      (editTree p (fun cs => splice cs a b values) t).get? q = t.get? (p ++ i :: rest) := by
  have hdd : (trailOf (p ++ i :: rest))[l.depth]? = some l.stop := by
    simp [trailOf, hd, hi]
  have hm : ∃ j : ℕ, moved a b values.length l.stop = j := by
    rw [hi]
    rcases h with h | h
    · exact ⟨i, moved_lt (by omega)⟩
    · exact ⟨((i : ℤ) + (values.length - (b - a))).toNat, by rw [moved_ge (by omega)]; omega⟩
  obtain ⟨j, hj⟩ := hm
  refine ⟨p ++ j :: rest, ?_, ?_⟩
  · rw [setSlice_eq hab (by rw [hn]; exact hb) values (by rw [hn]; omega)]
    simp only
    rw [newEn_eq hab hst hdd (by omega), hj]
    simp [trailOf, hd, List.set_append]
  · rw [editTree_get? _ p rest j t u hu, Node.get?_append, hu]
    simp only [Option.bind_some, Tree.get?]
    have := splice_moved u.children values hab hb (i := l.stop) (by omega) (by omega)
    rw [hj, hi] at this
    simp only [Int.toNat_natCast] at this
    rw [this]
    cases u.children[i]? <;> rfl

open Quickly.Node in
theorem get?_after {α : Type} (t u : Tree α) (p : Path) (hu : t.get? p = some u) {a b : ℕ} (hab : a ≤ b)
    (hb : b < u.children.length) (values : List (Tree α)) :
    (editTree p (fun cs => splice cs a b values) t).get? (p ++ [a + values.length]) = t.get? (p ++ [b]) := by
  rw [editTree_get? _ p [] (a + values.length) t u hu, Node.get?_append, hu]
  simp only [Option.bind_some, Tree.get?]
  rw [splice_getElem? u.children values hab (by omega), if_neg (by omega), if_neg (by omega)]
  rw [show a + values.length + b - a - values.length = b by omega]
  cases u.children[b]? <;> rfl

open Quickly.Node in
/-- C60: when the node that is, or contains, the start node is in the replaced nodes, the range starts with the first node
after them.  If that is the first child, or if there is none, the start node is the node whose children were replaced. -/
theorem C60_start_replaced {α : Type} (t u : Tree α) (p rest : Path) (i : ℕ) (hu : t.get? p = some u)
    (l : Level (Tree α)) (hn : l.nodes = u.children) (hd : l.depth = p.length)
    (hst : l.st = some (trailOf (p ++ i :: rest))) (hi : l.start = i) {a b : ℕ} (ha : a ≤ i) (hib : i < b)
    (hb : b ≤ u.children.length) (values : List (Tree α)) :
    (b < u.children.length → 0 < a + values.length →
      ∃ q, (setSlice l (some a) (some b) values).st = some (trailOf q) ∧
        (editTree p (fun cs => splice cs a b values) t).get? q = t.get? (p ++ [b])) ∧
    (b < u.children.length → a + values.length = 0 → (setSlice l (some a) (some b) values).st = some (trailOf p)) ∧
    (b = u.children.length → 0 < a + values.length → (setSlice l (some a) (some b) values).st = some (trailOf p)) := by
  have hdd : (trailOf (p ++ i :: rest))[l.depth]? = some l.start := by
    simp [trailOf, hd, hi]
  have hbl : b ≤ l.nodes.length := by rw [hn]; exact hb
  have hh : ∀ n len, Edit.hits ⟨a, (b : ℤ) - a, n, len⟩ l.start = true := by
    intro n len
    simp only [Edit.hits, decide_eq_true_eq]; omega
  have htk : (trailOf (p ++ i :: rest)).take l.depth = trailOf p := by
    simp [trailOf, hd]
  have key : u.children.length + values.length ≠ b - a → (setSlice l (some a) (some b) values).st =
      some (trailOf p ++ if (0 : ℤ) < a + values.length ∧ (a + values.length : ℤ) < u.children.length + values.length - (b - a)
        then [(a + values.length : ℤ)] else []) := by
    intro h0
    rw [setSlice_eq (by omega) hbl values (by rw [hn]; omega)]
    simp only [newSt]
    rw [if_pos (adjusts_of l.st l.start ⟨_, hst, hdd⟩), hh, if_pos rfl, hst, Option.map_some, htk, hn]
    simp only [Edit.move, hh, if_true]
  refine ⟨?_, ?_, ?_⟩
  · intro h1 h2
    refine ⟨p ++ [a + values.length], ?_, get?_after t u p hu (by omega) h1 values⟩
    rw [key (by omega), if_pos ⟨by omega, by omega⟩]
    simp [trailOf]
  · intro h1 h2
    rw [key (by omega), if_neg (by omega), List.append_nil]
  · intro h1 h2
    rw [key (by omega), if_neg (by omega), List.append_nil]

open Quickly.Node in
/-- C60 does not hold when the node that is, or contains, the end node is in the replaced nodes: the range ends with the
first node after them, which was not in the range; if there is none, with the node whose children were replaced. -/
theorem C60_end_replaced {α : Type} (t u : Tree α) (p rest : Path) (i : ℕ) (hu : t.get? p = some u)
    (l : Level (Tree α)) (hn : l.nodes = u.children) (hd : l.depth = p.length)
    (hst : l.en = some (trailOf (p ++ i :: rest))) (hi : l.stop = i) {a b : ℕ} (ha : a ≤ i) (hib : i < b)
    (hb : b ≤ u.children.length) (values : List (Tree α)) :
    (b < u.children.length →
      ∃ q, (setSlice l (some a) (some b) values).en = some (trailOf q) ∧
        (editTree p (fun cs => splice cs a b values) t).get? q = t.get? (p ++ [b])) ∧
    (b = u.children.length → 0 < a + values.length → (setSlice l (some a) (some b) values).en = some (trailOf p)) := by
  have hdd : (trailOf (p ++ i :: rest))[l.depth]? = some l.stop := by
    simp [trailOf, hd, hi]
  have hbl : b ≤ l.nodes.length := by rw [hn]; exact hb
  have hh : ∀ n len, Edit.hits ⟨a, (b : ℤ) - a, n, len⟩ l.stop = true := by
    intro n len
    simp only [Edit.hits, decide_eq_true_eq]; omega
  have htk : (trailOf (p ++ i :: rest)).take l.depth = trailOf p := by
    simp [trailOf, hd]
  have key : u.children.length + values.length ≠ b - a → (setSlice l (some a) (some b) values).en =
      some (trailOf p ++ if (a + values.length : ℤ) < u.children.length + values.length - (b - a)
        then [(a + values.length : ℤ)] else []) := by
    intro h0
    rw [setSlice_eq (by omega) hbl values (by rw [hn]; omega)]
    simp only [newEn]
    rw [if_pos (adjusts_of l.en l.stop ⟨_, hst, hdd⟩), hh, if_pos rfl, hst, Option.map_some, htk, hn]
    simp only [Edit.move, hh, if_true]
  refine ⟨?_, ?_⟩
  · intro h1
    refine ⟨p ++ [a + values.length], ?_, get?_after t u p hu (by omega) h1 values⟩
    rw [key (by omega), if_pos (by omega)]
    simp [trailOf]
  · intro h1 h2
    rw [key (by omega), if_neg (by omega), List.append_nil]

/-- C60: `range[i] = node` replaces one node, and leaves the iteration where it is: the
nodes after it still come. -/
theorem C60_set_item {l : Level β} (hl : Valid l) {i : ℕ} (hi : i < l.nodes.length) (value : β) :
    ∃ l', setItem l i value = .ok l' ∧ l'.nodes = l.nodes.set i value ∧
      (∀ xs, Yields l xs → Yields l' (if (i : ℤ) < l.nextIndex then xs else xs.set (i - l.nextIndex.toNat) value)) := by
  have hx : Heap.itemIndex l.nodes.length (i : ℤ) = some i := by
    simp only [Heap.itemIndex]
    rw [if_neg (by omega : ¬ (i : ℤ) < 0), if_pos (by omega)]
    simp
  refine ⟨_, by rw [setItem, hx], rfl, ?_⟩
  intro xs h
  have hi' := hl.index
  have h1 := hl.start
  have hn0 : 0 ≤ l.nextIndex := by simp only [Level.nextIndex]; split <;> omega
  rw [yields_eq hl h]
  refine yields_of (nx := l.nextIndex) ?_ hn0 (by simpa using hl.stop_lt) ?_
  · rfl
  · apply List.ext_getElem?
    intro k
    split
    · simp only [List.getElem?_drop, List.getElem?_take, List.getElem?_set]
      rw [if_neg (by omega : ¬ i = l.nextIndex.toNat + k)]
    · simp only [List.getElem?_drop, List.getElem?_take, List.getElem?_set, List.length_drop, List.length_take]
      by_cases hk : i - l.nextIndex.toNat = k
      · rw [if_pos hk, if_pos (by omega : i = l.nextIndex.toNat + k)]
        by_cases h3 : l.nextIndex.toNat + k < (l.stop + 1).toNat
        · rw [if_pos h3, if_pos hi, if_pos (by omega)]
        · rw [if_neg h3, if_neg (by omega)]
      · rw [if_neg hk, if_neg (by omega : ¬ i = l.nextIndex.toNat + k)]

open Quickly.Node in
theorem get?_set {α : Type} (t u value : Tree α) (p rest : Path) (i k : ℕ) (hu : t.get? p = some u)
    (h : i ≠ k) : (editTree p (fun cs => cs.set i value) t).get? (p ++ k :: rest) = t.get? (p ++ k :: rest) := by
  rw [editTree_get? _ p rest k t u hu, Node.get?_append, hu]
  simp only [Option.bind_some, Tree.get?, List.getElem?_set, if_neg h]
  cases u.children[k]? <;> rfl

open Quickly.Node in
theorem get?_set_self {α : Type} (t u value : Tree α) (p : Path) (k : ℕ) (hu : t.get? p = some u)
    (hk : k < u.children.length) :
    (editTree p (fun cs => cs.set k value) t).get? (p ++ [k]) = some value := by
  rw [editTree_get? _ p [] k t u hu]
  simp [List.getElem?_set, hk, Tree.get?]

open Quickly.Node in
/-- C60: when another node is replaced by `range[i] = value`, the start trail and the end
trail still lead to the same nodes in the changed tree. -/
theorem C60_set_item_keeps {α : Type} (t u value : Tree α) (p rest : Path) (i k : ℕ) (hu : t.get? p = some u)
    (l : Level (Tree α)) (hn : l.nodes = u.children) (hi : i < u.children.length) (hik : i ≠ k) :
    (l.st = some (trailOf (p ++ k :: rest)) → l.start = k →
      ∃ l' q, setItem l i value = .ok l' ∧ l'.st = some (trailOf q) ∧
        (editTree p (fun cs => cs.set i value) t).get? q = t.get? (p ++ k :: rest)) ∧
    (l.en = some (trailOf (p ++ k :: rest)) → l.stop = k →
      ∃ l' q, setItem l i value = .ok l' ∧ l'.en = some (trailOf q) ∧
        (editTree p (fun cs => cs.set i value) t).get? q = t.get? (p ++ k :: rest)) := by
  have hx : Heap.itemIndex l.nodes.length (i : ℤ) = some i := by
    simp only [Heap.itemIndex, hn]
    rw [if_neg (by omega : ¬ (i : ℤ) < 0), if_pos (by omega)]
    simp
  constructor <;> intro hst hk <;>
    refine ⟨_, p ++ k :: rest, by rw [setItem, hx], ?_, get?_set t u value p rest i k hu hik⟩
  · simp only [cut]; rw [if_neg (by rw [hk]; omega), hst]
  · simp only [cut]; rw [if_neg (by rw [hk]; omega), hst]

open Quickly.Node in
/-- C60: when the node that is, or contains, the start node is replaced by
`range[i] = value`, the new node becomes the start node; the same for the end node. -/
theorem C60_set_item_boundary {α : Type} (t u value : Tree α) (p rest : Path) (k : ℕ) (hu : t.get? p = some u)
    (l : Level (Tree α)) (hn : l.nodes = u.children) (hd : l.depth = p.length) (hk : k < u.children.length) :
    (l.st = some (trailOf (p ++ k :: rest)) → l.start = k →
      ∃ l' q, setItem l k value = .ok l' ∧ l'.st = some (trailOf q) ∧
        (editTree p (fun cs => cs.set k value) t).get? q = some value) ∧
    (l.en = some (trailOf (p ++ k :: rest)) → l.stop = k →
      ∃ l' q, setItem l k value = .ok l' ∧ l'.en = some (trailOf q) ∧
        (editTree p (fun cs => cs.set k value) t).get? q = some value) := by
  have hx : Heap.itemIndex l.nodes.length (k : ℤ) = some k := by
    simp only [Heap.itemIndex, hn]
    rw [if_neg (by omega : ¬ (k : ℤ) < 0), if_pos (by omega)]
    simp
  have ht : (trailOf (p ++ k :: rest)).take (l.depth + 1) = trailOf (p ++ [k]) := by
    simp only [trailOf, hd, List.map_append, List.map_cons, List.map_nil]
    rw [List.take_append, List.take_of_length_le (by simp)]
    simp
  have hdd : ∀ j : ℤ, j = k → (trailOf (p ++ k :: rest))[l.depth]? = some j := by
    intro j hj; simp [trailOf, hd, hj]
  constructor <;> intro hst hs <;>
    refine ⟨_, p ++ [k], by rw [setItem, hx], ?_, get?_set_self t u value p k hu hk⟩
  · simp only [cut]
    rw [if_pos ⟨adjusts_of l.st l.start ⟨_, hst, hdd _ hs⟩, hs.symm⟩, hst, Option.map_some, ht]
  · simp only [cut]
    rw [if_pos ⟨adjusts_of l.en l.stop ⟨_, hst, hdd _ hs⟩, hs.symm⟩, hst, Option.map_some, ht]

theorem delAll_eq (l : Level β) (hs : ∀ s, l.st = some s → s ≠ [] → l.depth ≤ s.length) :
    ∃ st en, delSlice l none none = make [] st en l.depth ∧ (l.st = none → st = none) ∧ (l.en = none → en = none) := by
  refine ⟨if truthy l.st then l.st.map fun s => s.take l.depth ++ [0] else l.st,
    if truthy l.en then l.en.map fun s => s.take l.depth else l.en, ?_, ?_, ?_⟩
  · have he : editOf l.nodes.length none none 0 = ⟨0, l.nodes.length, 0, 0⟩ := by
      simp [editOf, indices]
    have hb : Heap.sliceBounds l.nodes.length none none = (0, l.nodes.length) := by
      simp [Heap.sliceBounds]
    simp only [delSlice, setSlice, List.length_nil, he, hb, adjust, if_true, make]
    have h1 : startIndex l.depth (if truthy l.st then l.st.map fun s => s.take l.depth ++ [0] else l.st) = 0 := by
      cases h : l.st with
      | none => simp [startIndex, truthy]
      | some s =>
        cases s with
        | nil => simp [startIndex, truthy]
        | cons x s =>
          have hl := hs _ h (by simp)
          simp only [truthy, if_true, Option.map_some, startIndex, Option.getD_some]
          split
          · rw [List.getD_eq_getElem?_getD, List.getElem?_append_right (by rw [List.length_take]; omega)]
            have : l.depth - (List.take l.depth (x :: s)).length = 0 := by
              rw [List.length_take, Nat.min_eq_left hl]; omega
            rw [this]; rfl
          · rfl
    have h2 : stopIndex 0 l.depth (if truthy l.en then l.en.map fun s => s.take l.depth else l.en) = -1 := by
      cases h : l.en with
      | none => simp [stopIndex, truthy]
      | some s =>
        cases s with
        | nil => simp [stopIndex, truthy]
        | cons x s =>
          simp only [truthy, if_true, Option.map_some, stopIndex]
          rw [List.getD_eq_getElem?_getD, List.getElem?_eq_none (by rw [List.length_take]; omega)]
          rfl
    simp [h1, h2]
  · intro h; simp [h, truthy]
  · intro h; simp [h, truthy]

/-- C60: when all nodes are deleted, the iteration is that of a new one over the node
without children, so it ends. -/
theorem C60_emptied (l : Level β) (hs : ∀ s, l.st = some s → s ≠ [] → l.depth ≤ s.length) :
    (∃ st en, delSlice l none none = make [] st en l.depth) ∧ Yields (delSlice l none none) [] := by
  obtain ⟨st, en, h, -, -⟩ := delAll_eq l hs
  refine ⟨⟨st, en, h⟩, .stop ?_⟩
  have h0 : (delSlice l none none).start = 0 ∧ (delSlice l none none).stop = -1 ∧ (delSlice l none none).index = -1 := by
    have he : editOf l.nodes.length none none 0 = ⟨0, l.nodes.length, 0, 0⟩ := by
      simp [editOf, indices]
    simp [delSlice, setSlice, he, adjust]
  rw [Level.next, if_pos]
  rw [Level.nextIndex, h0.2.2, if_pos rfl, h0.1, h0.2.1]
  omega

/-! ### Where it goes wrong -/

/-- C60 does not hold when the current node is replaced or deleted: the first node after the
replaced ones, that was to come, is skipped. -/
theorem C60_current_skips {l : Level β} {a b : ℕ} (hl : Valid l) (ha : (a : ℤ) ≤ l.index) (hb : l.index < b)
    (hs : (b : ℤ) ≤ l.stop) {values xs : List β} (h : Yields l xs) :
    Yields (setSlice l (some a) (some b) values) (xs.drop (b - l.nextIndex.toNat + 1)) := by
  have hst := hl.stop_lt
  have hi' := hl.index
  have hab : a ≤ b := by omega
  have hbl : b ≤ l.nodes.length := by omega
  rw [yields_eq hl h]
  clear h
  have hlen := splice_length l.nodes values hab hbl
  rw [setSlice_eq hab hbl values (by omega)]
  simp only
  rw [newStop_eq hab (by omega) (by omega), moved_ge (i := l.stop) (by omega)]
  have hm : Edit.move ⟨a, (b : ℤ) - a, values.length, (l.nodes.length : ℤ) + values.length - (b - a)⟩ l.index =
      a + values.length := by
    simp only [Edit.move, Edit.hits]
    rw [if_pos (by simp only [decide_eq_true_eq]; omega)]
  rw [hm]
  have hn : l.nextIndex = l.index + 1 := by simp only [Level.nextIndex]; rw [if_neg (by omega)]
  refine yields_of (nx := a + values.length + 1) ?_ (by omega) (by simp only; rw [hlen]; omega) ?_
  · simp only [Level.nextIndex]; rw [if_neg (by omega)]
  · apply List.ext_getElem?
    intro k
    simp only [List.getElem?_drop, List.getElem?_take, hn]
    rw [splice_getElem? l.nodes values hab hbl]
    by_cases hk : (a + values.length + 1 : ℤ).toNat + k < (l.stop + (values.length - (b - a)) + 1).toNat
    · rw [if_pos hk, if_neg (by omega), if_neg (by omega), if_pos (by omega)]
      congr 1; omega
    · rw [if_neg hk, if_neg (by omega)]

/-- C60 does not hold when the last node of a node is deleted: iterating over a full range
then raises an IndexError. -/
theorem C60_last_raises (nodes : List β) (h : 2 ≤ nodes.length) :
    Raises (delItem (make nodes none none 0) ((nodes.length : ℤ) - 1)) nodes.dropLast .indexError := by
  have he : delItem (make nodes none none 0) ((nodes.length : ℤ) - 1) =
      ⟨nodes.dropLast, 0, none, none, 0, (nodes.length : ℤ) - 1, -1⟩ := by
    have h1 : ((nodes.length : ℤ) - 1) = ((nodes.length - 1 : ℕ) : ℤ) := by omega
    have h2 : ((nodes.length - 1 : ℕ) : ℤ) + 1 = (nodes.length : ℕ) := by omega
    rw [delItem, h1, h2, setSlice_eq (by omega) (by simp [make]) [] (by simp [make]; omega)]
    have h3 : ¬ ((nodes.length - 1 : ℕ) : ℤ) ≤ 0 := by omega
    have h4 : ((nodes.length - 1 : ℕ) : ℤ) ≤ (nodes.length : ℤ) - 1 := by omega
    simp only [make, splice, newSt, newEn, adjusts, truthy, newStop, Edit.move, Edit.hits, Edit.before, startIndex,
      stopIndex, Bool.false_and, Bool.false_eq_true, if_false, List.length_nil, List.append_nil, List.drop_length,
      decide_eq_true_eq, h4, if_true, List.dropLast_eq_take]
    congr 1
    · rw [if_neg (by omega), if_neg (by omega)]
    · rw [if_pos ⟨trivial, by omega⟩]; simp
    · rw [if_neg (by omega), if_neg (by omega)]
  rw [he]
  have hr : ∀ (n : ℕ) (k : ℤ), -1 ≤ k → k + 1 + n = (nodes.length : ℤ) - 1 →
      Raises (⟨nodes.dropLast, 0, none, none, 0, (nodes.length : ℤ) - 1, k⟩ : Level β)
        (nodes.dropLast.drop (k + 1).toNat) .indexError := by
    intro n
    induction n with
    | zero =>
      intro k hk hn
      rw [List.drop_eq_nil_of_le (by simp only [List.length_dropLast]; omega)]
      refine .now ?_
      have hnx : Level.nextIndex (⟨nodes.dropLast, 0, none, none, 0, (nodes.length : ℤ) - 1, k⟩ : Level β) = k + 1 := by
        simp only [Level.nextIndex]; split <;> omega
      have hi : Heap.itemIndex nodes.dropLast.length (k + 1) = none := by
        simp only [Heap.itemIndex, List.length_dropLast]
        rw [if_neg (by omega : ¬ k + 1 < 0), if_neg (by omega)]
      rw [Level.next, hnx, if_neg (by simp only; omega)]
      simp only [item, hi]
    | succ n ih =>
      intro k hk hn
      have hnx : Level.nextIndex (⟨nodes.dropLast, 0, none, none, 0, (nodes.length : ℤ) - 1, k⟩ : Level β) = k + 1 := by
        simp only [Level.nextIndex]; split <;> omega
      have hlt : (k + 1).toNat < nodes.dropLast.length := by simp only [List.length_dropLast]; omega
      obtain ⟨x, hx, hx'⟩ := item_nat (xs := nodes.dropLast) (i := k + 1) (by omega) (by omega)
      rw [List.drop_eq_getElem_cons hlt]
      rw [List.getElem?_eq_getElem hlt, Option.some.injEq] at hx
      rw [hx]
      refine .later (l' := ⟨nodes.dropLast, 0, none, none, 0, (nodes.length : ℤ) - 1, k + 1⟩) ?_ ?_
      · rw [Level.next, hnx, if_neg (by simp only; omega)]
        simp only [hx']
      · have := ih (k + 1) (by omega) (by omega)
        rwa [show (k + 1 + 1).toNat = (k + 1).toNat + 1 by omega] at this
  simpa using hr (nodes.length - 1) (-1) (by omega) (by omega)

/-- `del range[-1]` does not delete anything. -/
theorem C60_del_minus_one (l : Level β) : (delItem l (-1)).nodes = l.nodes := by
  simp only [delItem, setSlice, Heap.sliceBounds, Heap.clamp]
  simp

/-- C60 does not hold for a node without children: nodes inserted in it do not come, although the
end of the iteration is moved to the last of them. -/
theorem C60_insert_in_empty (depth : ℕ) {values : List β} (h : values ≠ []) :
    let l := setSlice (make [] none none depth) none none values
    l.nodes = values ∧ l.stop = values.length - 1 ∧ Yields l [] := by
  have hp : 0 < values.length := List.length_pos_of_ne_nil h
  have he : editOf 0 none none values.length = ⟨0, 0, values.length, values.length⟩ := by
    simp [editOf, indices]
  have hl : setSlice (make ([] : List β) none none depth) none none values =
      ⟨values, depth, none, none, values.length, values.length - 1, -1⟩ := by
    simp only [setSlice, make, List.length_nil, he, adjust]
    rw [if_neg (by omega)]
    simp [Heap.sliceBounds, newSt, newEn, adjusts, truthy, newStop, Edit.move, Edit.hits, Edit.before, startIndex,
      stopIndex]
    intro h; exact absurd h ‹_›
  simp only
  rw [hl]
  refine ⟨rfl, rfl, .stop ?_⟩
  rw [Level.next, if_pos]
  simp only [Level.nextIndex]
  rw [if_pos trivial]
  omega

/-! ### Examples -/

/-- A level over five nodes, from the second to the fourth, at the third. -/
def exLevel : Level ℕ := ⟨[10, 11, 12, 13, 14], 0, some [1, 2], some [3], 1, 3, 2⟩

example : Valid exLevel := by constructor <;> decide
example : Yields exLevel [13] := yields_of (nx := 3) (by decide) (by decide) (by decide) (by decide)
example : OnStart exLevel := ⟨[1, 2], rfl, rfl⟩
example : OnEnd exLevel := ⟨[3], rfl, rfl⟩
-- inserting two nodes at the front
example : Yields (setSlice exLevel (some 0) (some 0) [1, 2]) [13] ∧
    (setSlice exLevel (some 0) (some 0) [1, 2]).st = some [3, 2] :=
  ⟨(C60_behind (a := 0) (b := 0) (by constructor <;> decide) (by decide) (by decide) (by decide)
    (yields_of (nx := 3) (by decide) (by decide) (by decide) (by decide))).1, by decide⟩
-- inserting after the current node
example : Yields (setSlice exLevel (some 3) (some 3) [1, 2]) [1, 2, 13] :=
  C60_ahead_partial (a := 3) (b := 3) (xs := [13]) (by constructor <;> decide) (by decide) (by decide) (by decide) (by decide)
    (yields_of (nx := 3) (by decide) (by decide) (by decide) (by decide))
-- deleting the current node: the next is skipped
example : Yields (delItem exLevel 2) [] :=
  C60_current_skips (a := 2) (b := 3) (xs := [13]) (values := []) (by constructor <;> decide) (by decide) (by decide)
    (by decide) (yields_of (nx := 3) (by decide) (by decide) (by decide) (by decide))
example : Raises (delItem (make [1, 2, 3] none none 0) 2) [1, 2] .indexError := C60_last_raises [1, 2, 3] (by decide)
-- deleting the last node of the range brings the next one into it
example : (delItem exLevel 3).stop = 3 ∧ (delItem exLevel 3).nodes = [10, 11, 12, 14] := by decide
-- deleting the start node, and the end node
example : (delItem exLevel 1).st = some [1] ∧ (delItem exLevel 1).nodes = [10, 12, 13, 14] := by decide
example : (delItem exLevel 3).en = some [3] := by decide
open Quickly.Node in
example (x y z : Tree ℕ) : ∃ q, (setSlice ⟨[x, y, z], 0, some (trailOf [1]), none, 1, 2, 1⟩ (some 1) (some 2) [z, z]).st =
      some (trailOf q) ∧
    (editTree [] (fun cs => splice cs 1 2 [z, z]) (.node 0 [x, y, z])).get? q = some z :=
  (C60_start_replaced (.node 0 [x, y, z]) (.node 0 [x, y, z]) [] [] 1 rfl ⟨[x, y, z], 0, some (trailOf [1]), none, 1, 2, 1⟩ rfl rfl rfl
    rfl (a := 1) (b := 2) (by decide) (by decide) (by simp [Tree.children]) [z, z]).1 (by simp [Tree.children]) (by simp)
-- replacing the start node, with what is below it
example : (setItem exLevel 1 20).toOption.map (fun l => (l.nodes, l.st, l.en)) =
    some ([10, 20, 12, 13, 14], some [1], some [3]) := by decide
example : Yields (delSlice exLevel none none) [] :=
  (C60_emptied exLevel (by intro s _ _; exact Nat.zero_le _)).2

end Quickly.RangeEdit
