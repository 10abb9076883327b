import Verif.Range.Spec
import Verif.Node.Props

/-!
# Lemmas about ranges
-/

namespace Quickly.NodeRange

open Quickly.Node Quickly.Node.Spec Spec

variable {α : Type}

/-! ## The children of a node that are in the range -/

/-- The first index of the range in the node at `p`. -/
def lo (st : Option Path) (p : Path) : ℕ :=
  match truthy st with
  | some s => if p <+: s then s[p.length]?.getD 0 else 0
  | none => 0

/-- The last index of the range in the node at `p`, with `len` children. -/
def hi (en : Option Path) (p : Path) (len : ℕ) : ℤ :=
  match en with
  | some e => if p <+: e then trailIndex e p.length else (len : ℤ) - 1
  | none => (len : ℤ) - 1

/-- The part of the children from index `a` to before `b`, in the direction. -/
def slice (rev : Bool) (n : Item α) (a b : ℕ) : List (Item α) :=
  if rev then (((number n.1 0 n.2.children).take b).drop a).reverse
  else ((number n.1 0 n.2.children).take b).drop a

/-- The children of `n` in the range. -/
def K (rev : Bool) (st en : Option Path) (n : Item α) : List (Item α) :=
  slice rev n (lo st n.1) (hi en n.1 n.2.children.length + 1).toNat

theorem slice_sublist (rev : Bool) (n : Item α) (a b : ℕ) : (slice rev n a b).Sublist (iterate rev n) := by
  have : (((number n.1 0 n.2.children).take b).drop a).Sublist (number n.1 0 n.2.children) :=
    (List.drop_sublist _ _).trans (List.take_sublist _ _)
  unfold slice iterate
  split
  · exact this.reverse
  · exact this

theorem goes_K (rev : Bool) (st en : Option Path) : Goes rev (K (α := α) rev st en) :=
  fun n => slice_sublist rev n _ _

theorem length_number (p : Path) (i : ℕ) (ts : List (Tree α)) : (number p i ts).length = ts.length := by
  induction ts generalizing i with
  | nil => rfl
  | cons t ts ih => simp [number, ih]

theorem getElem?_number (p : Path) (i k : ℕ) (ts : List (Tree α)) :
    (number p i ts)[k]? = (ts[k]?).map fun t => (p ++ [i + k], t) := by
  induction ts generalizing i k with
  | nil => simp [number]
  | cons t ts ih =>
    cases k with
    | zero => simp [number]
    | succ k =>
      simp only [number, List.getElem?_cons_succ, ih]
      congr 2
      funext t
      congr 3
      omega

theorem itemAt_eq (n : Item α) (i : ℕ) : itemAt n i = (number n.1 0 n.2.children)[i]? := by
  rw [getElem?_number]
  unfold itemAt
  cases n.2.children[i]? <;> simp

theorem itemAt_some {n c : Item α} {i : ℕ} :
    itemAt n i = some c ↔ c.1 = n.1 ++ [i] ∧ n.2.children[i]? = some c.2 := by
  unfold itemAt
  cases h : n.2.children[i]? with
  | none => simp
  | some d =>
    simp only [Option.some.injEq]
    constructor
    · rintro rfl; exact ⟨rfl, rfl⟩
    · rintro ⟨h1, h2⟩; exact Prod.ext h1.symm h2

theorem mem_slice {rev : Bool} {n c : Item α} {a b : ℕ} :
    c ∈ slice rev n a b ↔ ∃ i, a ≤ i ∧ i < b ∧ itemAt n i = some c := by
  have : c ∈ slice rev n a b ↔ c ∈ ((number n.1 0 n.2.children).take b).drop a := by
    unfold slice; split <;> simp
  rw [this, List.mem_iff_getElem?]
  constructor
  · rintro ⟨i, h⟩
    rw [List.getElem?_drop, List.getElem?_take] at h
    split at h
    · exact ⟨a + i, by omega, by assumption, by rw [itemAt_eq]; exact h⟩
    · cases h
  · rintro ⟨i, h1, h2, h3⟩
    refine ⟨i - a, ?_⟩
    rw [List.getElem?_drop, List.getElem?_take, Nat.add_sub_cancel' h1, if_pos h2, ← itemAt_eq]
    exact h3

theorem slice_pairwise (rev : Bool) (n : Item α) (a b : ℕ) :
    (slice rev n a b).Pairwise (fun a b => Branch rev a.1 b.1) :=
  (iterate_pairwise rev n).sublist (slice_sublist rev n a b)

theorem slice_empty {rev : Bool} {n : Item α} {a b : ℕ} (h : b ≤ a) : slice rev n a b = [] := by
  have : ((number n.1 0 n.2.children).take b).drop a = [] := by
    rw [List.drop_eq_nil_iff, List.length_take]; omega
  unfold slice
  simp [this]

theorem slice_fwd {n c : Item α} {a b : ℕ} (h : a < b) (hc : itemAt n a = some c) :
    slice false n a b = c :: slice false n (a + 1) b := by
  simp only [slice, Bool.false_eq_true, if_false]
  rw [itemAt_eq] at hc
  obtain ⟨hl, hg⟩ := List.getElem?_eq_some_iff.mp hc
  have hl' : a < ((number n.1 0 n.2.children).take b).length := by rw [List.length_take]; omega
  rw [List.drop_eq_getElem_cons hl', List.getElem_take, hg]

theorem slice_rev {n c : Item α} {a b : ℕ} (h : a ≤ b) (hc : itemAt n b = some c) :
    slice true n a (b + 1) = c :: slice true n a b := by
  simp only [slice, if_true]
  rw [itemAt_eq] at hc
  obtain ⟨hl, hg⟩ := List.getElem?_eq_some_iff.mp hc
  have : ((number n.1 0 n.2.children).take (b + 1)).drop a = ((number n.1 0 n.2.children).take b).drop a ++ [c] := by
    rw [List.take_add_one, hc, List.drop_append_of_le_length]
    · simp
    · rw [List.length_take]; omega
  rw [this]
  simp

/-! ## Levels -/

/-- The trail that is kept for the node at `p`. -/
def keptS (st : Option Path) (p : Path) : Option Path :=
  match truthy st with
  | some s => if p <+: s ∧ p.length < s.length then some s else none
  | none => none

/-- The end trail that is kept for the node at `p`. -/
def keptE (en : Option Path) (p : Path) : Option Path :=
  match en with
  | some e => if p <+: e then some e else none
  | none => none

/-- The level belongs to the range. -/
structure Ok (t : Tree α) (st en : Option Path) (l : Level α) : Prop where
  hnode : t.get? l.node.1 = some l.node.2
  hdepth : l.depth = l.node.1.length
  hst : truthy l.st = keptS st l.node.1
  hen : l.en = keptE en l.node.1
  hstart : l.start = lo st l.node.1
  hstop : l.stop = hi en l.node.1 l.node.2.children.length

theorem truthy_truthy (st : Option Path) : truthy (truthy st) = truthy st := by
  rcases st with _ | _ | ⟨i, p⟩ <;> rfl

theorem truthy_some {st : Option Path} {s : Path} (h : truthy st = some s) : st = some s ∧ s ≠ [] := by
  rcases st with _ | _ | ⟨i, p⟩ <;> simp [truthy] at h
  simp [h]
  rintro rfl; simp at h

theorem truthy_of_ne {s : Path} (h : s ≠ []) : truthy (some s) = some s := by
  cases s with
  | nil => exact absurd rfl h
  | cons => rfl

theorem startIndex_lo (st : Option Path) (p : Path) {x : Option Path} (hx : truthy x = keptS st p) :
    startIndex x p.length = lo st p := by
  unfold startIndex lo
  rw [hx]
  unfold keptS
  cases truthy st with
  | none => rfl
  | some s =>
    simp only
    by_cases h : p <+: s
    · by_cases h2 : p.length < s.length
      · simp [h, h2]
      · have : s[p.length]? = none := by rw [List.getElem?_eq_none_iff]; omega
        simp [h, h2, this]
    · simp [h]

theorem stopIndex_hi (en : Option Path) (p : Path) (len : ℕ) : stopIndex (keptE en p) p.length len = hi en p len := by
  unfold stopIndex hi keptE
  cases en with
  | none => rfl
  | some e =>
    simp only
    by_cases h : p <+: e
    · simp only [h, if_true]
    · simp only [h, if_false]

theorem ok_make (t : Tree α) (st en : Option Path) : Ok t st en (Level.make ([], t) st en 0) where
  hnode := rfl
  hdepth := rfl
  hst := by
    simp only [Level.make, keptS]
    cases h : truthy st with
    | none => rfl
    | some s =>
      have := (truthy_some h).2
      simp [List.length_pos_iff.mpr this]
  hen := by
    simp only [Level.make, keptE]
    cases en <;> simp
  hstart := startIndex_lo st [] (by
    simp only [keptS]
    cases h : truthy st with
    | none => rfl
    | some s =>
      have := (truthy_some h).2
      simp [List.length_pos_iff.mpr this])
  hstop := by
    have := stopIndex_hi en [] t.children.length
    have h : keptE en [] = en := by cases en <;> simp [keptE]
    rw [h] at this
    exact this

theorem Ok.withIndex {t : Tree α} {st en : Option Path} {l : Level α} (h : Ok t st en l) (i : Option ℕ) :
    Ok t st en { l with index := i } := ⟨h.hnode, h.hdepth, h.hst, h.hen, h.hstart, h.hstop⟩

theorem prefix_snoc {p s : Path} {i : ℕ} : p ++ [i] <+: s ↔ p <+: s ∧ s[p.length]? = some i := by
  constructor
  · rintro ⟨r, rfl⟩
    exact ⟨⟨i :: r, by simp⟩, by simp⟩
  · rintro ⟨⟨r, rfl⟩, h⟩
    cases r with
    | nil => simp at h
    | cons j r =>
      simp at h
      subst h
      exact ⟨r, by simp⟩

theorem get?_snoc' {t s : Tree α} {p : Path} {i : ℕ} {c : Tree α} (h : t.get? p = some s) (hc : s.children[i]? = some c) :
    t.get? (p ++ [i]) = some c := by
  rw [get?_append, h]
  simp [Tree.get?, hc]

theorem childSt_eq {t : Tree α} {st en : Option Path} {l : Level α} (h : Ok t st en l) (i : ℕ) :
    truthy (l.childSt i) = keptS st (l.node.1 ++ [i]) := by
  unfold Level.childSt
  rw [h.hst, h.hstart, h.hdepth]
  unfold keptS lo
  cases hs : truthy st with
  | none => rfl
  | some s =>
    have hts : truthy (some s) = some s := truthy_of_ne (truthy_some hs).2
    simp only
    by_cases hp : l.node.1 <+: s ∧ l.node.1.length < s.length
    · obtain ⟨hp1, hp2⟩ := hp
      have hg : s[l.node.1.length]? = some s[l.node.1.length] := List.getElem?_eq_getElem hp2
      rw [if_pos ⟨hp1, hp2⟩]
      simp only [hp1, if_true, hg, Option.getD_some]
      by_cases hx : i = s[l.node.1.length] ∧ s.length > l.node.1.length + 1
      · rw [if_pos hx, if_pos ⟨prefix_snoc.mpr ⟨hp1, by rw [hg, hx.1]⟩, by simpa using hx.2⟩, hts]
      · rw [if_neg hx, if_neg]
        · rfl
        · rintro ⟨h1, h2⟩
          have := (prefix_snoc.mp h1).2
          rw [hg, Option.some.injEq] at this
          exact hx ⟨this.symm, by simpa using h2⟩
    · simp only [if_neg hp]
      rw [if_neg]
      · rfl
      · rintro ⟨h1, h2⟩
        exact hp ⟨(prefix_snoc.mp h1).1, by simp at h2; omega⟩

theorem childEn_eq {t : Tree α} {st en : Option Path} {l : Level α} (h : Ok t st en l) (i : ℕ) :
    l.childEn i = keptE en (l.node.1 ++ [i]) := by
  unfold Level.childEn
  rw [h.hen, h.hstop]
  unfold keptE hi
  cases en with
  | none => rfl
  | some e =>
    simp only
    by_cases hp : l.node.1 <+: e
    · simp only [hp, if_true]
      by_cases hx : (i : ℤ) = trailIndex e l.node.1.length
      · rw [if_pos hx, if_pos]
        refine prefix_snoc.mpr ⟨hp, ?_⟩
        unfold trailIndex at hx
        cases hg : e[l.node.1.length]? with
        | none => rw [hg] at hx; simp only at hx; omega
        | some j => rw [hg] at hx; simp only [Int.natCast_inj] at hx; rw [hx]
      · rw [if_neg hx, if_neg]
        intro h1
        have := (prefix_snoc.mp h1).2
        exact hx (by simp [trailIndex, this])
    · simp only [hp, if_false]
      rw [if_neg]
      exact fun h1 => hp (prefix_snoc.mp h1).1

theorem ok_child {t : Tree α} {st en : Option Path} {l : Level α} (h : Ok t st en l) {i : ℕ} {n : Item α}
    (hn : itemAt l.node i = some n) :
    ∃ c, l.childAt i = some c ∧ Ok t st en c ∧ c.node = n ∧ c.index = none := by
  obtain ⟨h1, h2⟩ := itemAt_some.mp hn
  have hd : l.depth + 1 = n.1.length := by rw [h.hdepth, h1]; simp
  have hs := childSt_eq h i
  have hE := childEn_eq h i
  rw [← h1] at hs hE
  refine ⟨Level.make n (l.childSt i) (l.childEn i) (l.depth + 1), by simp [Level.childAt, hn], ?_, rfl, rfl⟩
  rw [hd]
  refine ⟨?_, rfl, hs, hE, startIndex_lo st n.1 hs, ?_⟩
  · show t.get? n.1 = some n.2
    rw [h1]
    exact get?_snoc' h.hnode h2
  · show stopIndex (l.childEn i) _ _ = _
    rw [hE, stopIndex_hi]
    rfl

/-- The children of the level that still come. -/
def remain (rev : Bool) (l : Level α) : List (Item α) :=
  match l.index with
  | none => slice rev l.node l.start (l.stop + 1).toNat
  | some i => if rev then slice true l.node l.start i else slice false l.node (i + 1) (l.stop + 1).toNat

theorem remain_none {rev : Bool} {t : Tree α} {st en : Option Path} {l : Level α} (h : Ok t st en l) (hi : l.index = none) :
    remain rev l = K rev st en l.node := by
  unfold remain K
  simp only [hi]
  rw [h.hstart, h.hstop]

/-- The end trail leads to a node. -/
def ValidEnd (t : Tree α) (en : Option Path) : Prop := ∀ e, en = some e → ∃ n, t.get? e = some n

theorem stop_lt {t : Tree α} {st en : Option Path} {l : Level α} (he : ValidEnd t en) (h : Ok t st en l) :
    l.stop < l.node.2.children.length := by
  rw [h.hstop]
  unfold hi
  cases en with
  | none => simp only; omega
  | some e =>
    simp only
    split
    · rename_i hp
      unfold trailIndex
      split
      · rename_i i hi
        obtain ⟨n, hn⟩ := he e rfl
        have hp2 := prefix_snoc.mpr ⟨hp, hi⟩
        obtain ⟨r, rfl⟩ := hp2
        rw [get?_append, get?_append, h.hnode] at hn
        simp only [Option.bind_some, Tree.get?] at hn
        cases hc : l.node.2.children[i]? with
        | none => rw [hc] at hn; simp at hn
        | some c =>
          have := (List.getElem?_eq_some_iff.mp hc).1
          exact_mod_cast this
      · omega
    · omega

/-- Stepping a level takes the first of the children that still come. -/
theorem step_eq {rev : Bool} {t : Tree α} {st en : Option Path} {l : Level α} (he : ValidEnd t en) (h : Ok t st en l)
    (hidx : ∀ i, l.index = some i → i ≤ l.node.2.children.length) :
    match l.step rev with
    | none => remain rev l = []
    | some (n, l') => remain rev l = n :: remain rev l' ∧ ∃ i, l' = { l with index := some i } ∧ itemAt l.node i = some n := by
  have hs := stop_lt he h
  have hex : ∀ i, i < l.node.2.children.length → ∃ n, itemAt l.node i = some n := by
    intro i hi
    exact ⟨_, itemAt_some (c := (l.node.1 ++ [i], l.node.2.children[i])) |>.mpr ⟨rfl, List.getElem?_eq_getElem hi⟩⟩
  unfold Level.step
  cases rev with
  | false =>
    simp only [Bool.false_eq_true, if_false]
    unfold Level.next
    have hrem : remain false l = slice false l.node l.nextIndex (l.stop + 1).toNat := by
      unfold remain Level.nextIndex
      cases l.index <;> rfl
    rw [hrem]
    by_cases hlt : (l.nextIndex : ℤ) > l.stop
    · rw [if_pos hlt]
      exact slice_empty (by omega)
    · rw [if_neg hlt]
      obtain ⟨n, hn⟩ := hex l.nextIndex (by omega)
      rw [hn]
      refine ⟨?_, l.nextIndex, rfl, hn⟩
      rw [slice_fwd (by omega) hn]
      rfl
  | true =>
    simp only [if_true]
    unfold Level.prev
    have hrem : remain true l = slice true l.node l.start (l.prevIndex + 1).toNat := by
      unfold remain Level.prevIndex
      cases l.index with
      | none => rfl
      | some i => simp
    have hlt : l.prevIndex < l.node.2.children.length := by
      unfold Level.prevIndex
      cases hi : l.index with
      | none => exact hs
      | some i => have := hidx i hi; simp only; omega
    rw [hrem]
    by_cases hge : l.prevIndex < (l.start : ℤ)
    · rw [if_pos hge]
      exact slice_empty (by omega)
    · rw [if_neg hge]
      obtain ⟨n, hn⟩ := hex l.prevIndex.toNat (by omega)
      rw [hn]
      refine ⟨?_, l.prevIndex.toNat, rfl, hn⟩
      have : (l.prevIndex + 1).toNat = l.prevIndex.toNat + 1 := by omega
      rw [this, slice_rev (by omega) hn]
      rfl

/-! ## Stacks -/

/-- A level of the range with a possible index. -/
structure Fine (t : Tree α) (st en : Option Path) (l : Level α) : Prop extends Ok t st en l where
  idx : ∀ i, l.index = some i → i < l.node.2.children.length

/-- The stack's innermost level points at `n`. -/
def PointsAt (ls : List (Level α)) (n : Item α) : Prop :=
  ∃ l ms i, ls = l :: ms ∧ l.index = some i ∧ itemAt l.node i = some n

/-- The nodes that still come. -/
def fv (rev : Bool) (ls : List (Level α)) : List (Item α) := (ls.map (remain rev)).flatten

theorem fv_cons (rev : Bool) (l : Level α) (ls : List (Level α)) : fv rev (l :: ls) = remain rev l ++ fv rev ls := by
  simp [fv]

theorem fv_append (rev : Bool) (ls ms : List (Level α)) : fv rev (ls ++ ms) = fv rev ls ++ fv rev ms := by
  simp [fv]

theorem lt_of_itemAt {n c : Item α} {i : ℕ} (h : itemAt n i = some c) : i < n.2.children.length :=
  (List.getElem?_eq_some_iff.mp (itemAt_some.mp h).2).1

theorem fwdAdvance_eq {rev : Bool} {t : Tree α} {st en : Option Path} (he : ValidEnd t en) {ls : List (Level α)}
    (h : ∀ l ∈ ls, Fine t st en l) :
    match fwdAdvance rev ls with
    | none => fv rev ls = []
    | some (n, ls') => fv rev ls = n :: fv rev ls' ∧ (∀ l ∈ ls', Fine t st en l) ∧ PointsAt ls' n := by
  induction ls with
  | nil => simp [fwdAdvance, fv]
  | cons l ls ih =>
    have hl := h l (by simp)
    have hstep := step_eq (rev := rev) he hl.toOk (fun i hi => Nat.le_of_lt (hl.idx i hi))
    unfold fwdAdvance
    cases hs : l.step rev with
    | none =>
      rw [hs] at hstep
      simp only [fv_cons] at hstep ⊢
      rw [hstep]
      simpa using ih (fun l hl => h l (by simp [hl]))
    | some x =>
      obtain ⟨n, l'⟩ := x
      rw [hs] at hstep
      obtain ⟨h1, i, rfl, hn⟩ := hstep
      simp only [fv_cons, h1, List.cons_append, true_and]
      refine ⟨?_, _, ls, i, rfl, rfl, hn⟩
      intro m hm
      rcases List.mem_cons.mp hm with rfl | hm
      · refine ⟨hl.toOk.withIndex _, ?_⟩
        intro j hj
        simp only [Option.some.injEq] at hj
        subst hj
        exact lt_of_itemAt hn
      · exact h m (by simp [hm])

theorem enter_eq {rev : Bool} {t : Tree α} {st en : Option Path} {ls : List (Level α)}
    (h : ∀ l ∈ ls, Fine t st en l) {n : Item α} (hp : PointsAt ls n) :
    ∃ c, enter ls = c :: ls ∧ Fine t st en c ∧ c.node = n ∧ c.index = none ∧ remain rev c = K rev st en n := by
  obtain ⟨l, ms, i, rfl, hi, hn⟩ := hp
  obtain ⟨c, hc, hok, hcn, hci⟩ := ok_child (h l (by simp)).toOk hn
  refine ⟨c, by simp [enter, hi, hc], ⟨hok, by simp [hci]⟩, hcn, hci, ?_⟩
  rw [remain_none hok hci, hcn]

theorem K_leaf {rev : Bool} {st en : Option Path} {n : Item α} (h : n.2.children = []) : K rev st en n = [] := by
  simp [K, slice, h, number]

theorem sent_eq {rev : Bool} {t : Tree α} {st en : Option Path} {ls : List (Level α)}
    (h : ∀ l ∈ ls, Fine t st en l) {p : Option (Item α)} (hp : ∀ n, p = some n → PointsAt ls n) (ok : Bool) :
    (∀ l ∈ sent p ok ls, Fine t st en l) ∧ fv rev (sent p ok ls) = kidsIf (K rev st en) p ok ++ fv rev ls := by
  cases p with
  | none => exact ⟨h, by simp [sent, kidsIf]⟩
  | some n =>
    cases ok with
    | false => exact ⟨by simpa [sent] using h, by simp [sent, kidsIf]⟩
    | true =>
      by_cases hc : n.2.children = []
      · exact ⟨by simpa [sent, hc] using h, by simp [sent, kidsIf, hc, K_leaf hc]⟩
      · obtain ⟨c, h1, h2, -, -, h3⟩ := enter_eq (rev := rev) h (hp n rfl)
        have : sent (some n) true ls = enter ls := by simp [sent, hc]
        rw [this, h1]
        refine ⟨?_, by simp [fv_cons, h3, kidsIf]⟩
        intro l hl
        rcases List.mem_cons.mp hl with rfl | hl
        · exact h2
        · exact h l hl

/-! ## Generators with an invariant -/

/-- What a generator does agrees with what the plain generator does. -/
def Agree {σ : Type} (Inv : σ → Prop) (view : σ → Option (Item α) × List (Item α))
    (w : Option (Item α × (Option (Item α) × List (Item α)))) : Option (Item α × σ) → Prop
  | none => w = none
  | some (n, s') => w = some (n, view s') ∧ Inv s'

/-- Like `Sim`, for states that meet an invariant. -/
def SimI {σ : Type} (Inv : σ → Prop) (K : Item α → List (Item α)) (resume : Resume σ α)
    (view : σ → Option (Item α) × List (Item α)) : Prop :=
  ∀ s ok, Inv s → Agree Inv view (wResume K (view s) ok) (resume s ok)

theorem runs_simI {σ : Type} {Inv : σ → Prop} {K : Item α → List (Item α)} {resume : Resume σ α} {view}
    (h : SimI Inv K resume view) {dec ok s hist out} (hi : Inv s)
    (hr : Runs resume dec ok s hist out) : Runs (wResume K) dec ok (view s) hist out := by
  induction hr with
  | @done ok s hist hn =>
    have := h s ok hi
    rw [hn] at this
    exact .done this
  | @step ok s hist n s' out hn _ ih =>
    have := h s ok hi
    rw [hn] at this
    exact .step this.1 (ih this.2)

theorem runs_of_simI {σ : Type} {Inv : σ → Prop} {K : Item α → List (Item α)} {resume : Resume σ α} {view}
    (h : SimI Inv K resume view) {dec ok s hist out} (hi : Inv s)
    (hr : Runs (wResume K) dec ok (view s) hist out) : Runs resume dec ok s hist out := by
  generalize hv : view s = v at hr
  induction hr generalizing s with
  | @done ok v hist hn =>
    subst hv
    have := h s ok hi
    cases hs : resume s ok with
    | none => exact .done hs
    | some x => rw [hs] at this; simp [hn, Agree] at this
  | @step ok v hist n v' out hn _ ih =>
    subst hv
    have := h s ok hi
    cases hs : resume s ok with
    | none => rw [hs] at this; simp [hn, Agree] at this
    | some x =>
      obtain ⟨m, s'⟩ := x
      rw [hs] at this
      obtain ⟨h1, h2⟩ := this
      rw [hn] at h1
      simp only [Option.some.injEq, Prod.mk.injEq] at h1
      obtain ⟨rfl, rfl⟩ := h1
      exact .step hs (ih h2 rfl)

theorem gen_listsA {σ : Type} {Inv : σ → Prop} {rev : Bool} {K : Item α → List (Item α)} (hK : Goes rev K)
    {resume : Resume σ α} {view} (h : SimI Inv K resume view) {s : σ} {W : List (Item α)}
    (hs : Agree Inv view (wResume K (none, W) true) (resume s true))
    (hW : W.Pairwise (fun a b => Branch rev a.1 b.1))
    {P : Item α → Prop} (hP : ∀ m, (∃ w ∈ W, Desc K w m) ↔ P m) :
    (∀ dec, ∃ out, Runs resume dec true s [] out) ∧
    (∀ dec out, Runs resume dec true s [] out →
      Lists rev (fun m => P m ∧ ∀ a ∈ out, Above a.1 m.1 → dec (upTo a.1 out) = true) out) := by
  constructor
  · intro dec
    obtain ⟨out, ho⟩ := wruns_exists hK dec _ none W true [] (Nat.le_refl _)
    cases hr : resume s true with
    | none => exact ⟨[], .done hr⟩
    | some x =>
      obtain ⟨n, s'⟩ := x
      rw [hr] at hs
      obtain ⟨h1, h2⟩ := hs
      cases ho with
      | done hd => rw [hd] at h1; cases h1
      | step hd hrest =>
        rw [hd] at h1
        simp only [Option.some.injEq, Prod.mk.injEq] at h1
        obtain ⟨rfl, rfl⟩ := h1
        exact ⟨_, .step hr (runs_of_simI h h2 hrest)⟩
  · intro dec out ho
    have h1 : Runs (wResume K) dec true (none, W) [] out := by
      cases ho with
      | done hd => rw [hd] at hs; exact .done hs
      | step hd hrest =>
        rw [hd] at hs
        exact .step hs.1 (runs_simI h hs.2 hrest)
    obtain ⟨a, b, c⟩ := wruns_mem hK h1 (by simpa [kidsIf] using hW)
    simp only [kidsIf, List.nil_append] at a b c
    refine ⟨a, fun m => ⟨fun hm => ?_, fun hm => ?_⟩⟩
    · exact ⟨(hP m).mp (b m hm), (c m (b m hm)).mp hm⟩
    · exact (c m ((hP m).mpr hm.1)).mpr hm.2

theorem gen_listsI {σ : Type} {Inv : σ → Prop} {rev : Bool} {K : Item α → List (Item α)} (hK : Goes rev K)
    {resume : Resume σ α} {view} (h : SimI Inv K resume view) {s : σ} (hi : Inv s)
    {W : List (Item α)} (hs : view s = (none, W)) (hW : W.Pairwise (fun a b => Branch rev a.1 b.1))
    {P : Item α → Prop} (hP : ∀ m, (∃ w ∈ W, Desc K w m) ↔ P m) :
    (∀ dec, ∃ out, Runs resume dec true s [] out) ∧
    (∀ dec out, Runs resume dec true s [] out →
      Lists rev (fun m => P m ∧ ∀ a ∈ out, Above a.1 m.1 → dec (upTo a.1 out) = true) out) := by
  constructor
  · intro dec
    obtain ⟨out, ho⟩ := wruns_exists hK dec _ none W true [] (Nat.le_refl _)
    exact ⟨out, runs_of_simI h hi (by rw [hs]; exact ho)⟩
  · intro dec out ho
    have h1 := runs_simI h hi ho
    rw [hs] at h1
    obtain ⟨a, b, c⟩ := wruns_mem hK h1 (by simpa [kidsIf] using hW)
    simp only [kidsIf, List.nil_append] at a b c
    refine ⟨a, fun m => ⟨fun hm => ?_, fun hm => ?_⟩⟩
    · exact ⟨(hP m).mp (b m hm), (c m (b m hm)).mp hm⟩
    · exact (c m ((hP m).mpr hm.1)).mpr hm.2

/-! ## forward -/

/-- The invariant of `forward`. -/
def FInv (t : Tree α) (st en : Option Path) (s : Option (Item α) × List (Level α)) : Prop :=
  (∀ l ∈ s.2, Fine t st en l) ∧ ∀ n, s.1 = some n → PointsAt s.2 n

theorem fwd_sim {rev : Bool} {t : Tree α} {st en : Option Path} (he : ValidEnd t en) :
    SimI (FInv t st en) (K rev st en) (fwdResume rev) (fun s => (s.1, fv rev s.2)) := by
  intro s ok hs
  obtain ⟨h1, h2⟩ := sent_eq (rev := rev) hs.1 hs.2 ok
  have h3 := fwdAdvance_eq (rev := rev) he h1
  unfold fwdResume
  cases ha : fwdAdvance rev (sent s.1 ok s.2) with
  | none =>
    rw [ha] at h3
    simp only [Agree, wResume, ← h2, h3]
  | some x =>
    obtain ⟨n, ls⟩ := x
    rw [ha] at h3
    obtain ⟨h4, h5, h6⟩ := h3
    refine ⟨by simp only [wResume, ← h2, h4], h5, fun m hm => by simp only [Option.some.injEq] at hm; exact hm ▸ h6⟩

/-! ## descendants -/

theorem descAdvance_eq {rev : Bool} {t : Tree α} {st en : Option Path} (he : ValidEnd t en)
    {as bs : List (Level α)} (h : ∀ l ∈ as ++ bs, Fine t st en l) (hne : as ≠ []) :
    match descAdvance rev bs.length (as ++ bs) with
    | .inr ls => fv rev as = [] ∧ (bs ≠ [] → ls = bs)
    | .inl (n, ls) => ∃ as', ls = as' ++ bs ∧ as' ≠ [] ∧ fv rev as = n :: fv rev as' ∧
        (∀ l ∈ ls, Fine t st en l) ∧ PointsAt ls n := by
  induction as with
  | nil => exact absurd rfl hne
  | cons l as ih =>
    have hl := h l (by simp)
    have hstep := step_eq (rev := rev) he hl.toOk (fun i hi => Nat.le_of_lt (hl.idx i hi))
    simp only [List.cons_append]
    unfold descAdvance
    cases hs : l.step rev with
    | some x =>
      obtain ⟨n, l'⟩ := x
      rw [hs] at hstep
      obtain ⟨h1, i, rfl, hn⟩ := hstep
      simp only
      refine ⟨{ l with index := some i } :: as, rfl, by simp, by simp [fv_cons, h1], ?_, _, as ++ bs, i, rfl, rfl, hn⟩
      intro m hm
      rcases List.mem_cons.mp hm with rfl | hm
      · refine ⟨hl.toOk.withIndex _, ?_⟩
        intro j hj
        simp only [Option.some.injEq] at hj
        subst hj
        exact lt_of_itemAt hn
      · exact h m (by simp only [List.cons_append, List.mem_cons]; exact .inr hm)
    | none =>
      rw [hs] at hstep
      simp only at hstep
      simp only [fv_cons, hstep, List.nil_append]
      cases as with
      | nil =>
        cases bs with
        | nil => simp [fv]
        | cons m ms => simp [fv]
      | cons a as =>
        have h5 := ih (fun l hl => h l (by simp only [List.cons_append, List.mem_cons]; exact .inr (by simpa using hl))) (by simp)
        simp only [List.cons_append, List.length_append]
        rw [if_neg (by omega)]
        simpa using h5

/-- The invariant of `descendants` after the first yield. -/
def DInv (t : Tree α) (st en : Option Path) (s : DState α) : Prop :=
  (∀ l ∈ s.stack, Fine t st en l) ∧
  match s.depth with
  | none => ∃ n, s.pending = none ∧ ((∃ l, s.stack = [l] ∧ l.node = n ∧ l.index = none) ∨ PointsAt s.stack n)
  | some d => ∃ as bs, s.stack = as ++ bs ∧ bs.length = d ∧ as ≠ [] ∧ ∃ n, s.pending = some n ∧ PointsAt s.stack n

/-- The work list of `descendants`. -/
def dfv (rev : Bool) (s : DState α) : List (Item α) :=
  match s.depth with
  | none => fv rev ((enter s.stack).take 1)
  | some d => fv rev (s.stack.take (s.stack.length - d))

theorem desc_sim {rev : Bool} {t : Tree α} {st en : Option Path} (he : ValidEnd t en) :
    SimI (DInv t st en) (K rev st en) (descResume rev) (fun s => (s.pending, dfv rev s)) := by
  intro s ok hs
  obtain ⟨depth, pending, stack⟩ := s
  obtain ⟨hf, hs⟩ := hs
  unfold descResume descGo
  cases depth with
  | none =>
    obtain ⟨n, hp, hs⟩ := hs
    simp only at hp
    subst hp
    obtain ⟨c, cs, hent, hfc⟩ : ∃ c cs, enter stack = c :: cs ∧ ∀ l ∈ c :: cs, Fine t st en l := by
      rcases hs with ⟨l, h1, h2, h3⟩ | hs
      · simp only at h1; subst h1; exact ⟨l, [], by simp [enter, h3], hf⟩
      · obtain ⟨c, h1, h2, -, -, -⟩ := enter_eq (rev := rev) hf hs
        refine ⟨c, stack, h1, ?_⟩
        intro l hl
        rcases List.mem_cons.mp hl with rfl | hl
        · exact h2
        · exact hf l hl
    have h3 := descAdvance_eq (rev := rev) (as := [c]) (bs := cs) he (by simpa using hfc) (by simp)
    simp only [List.singleton_append] at h3
    simp only [dfv, hent, List.length_cons, Nat.add_sub_cancel, List.take_succ_cons, List.take_zero]
    cases ha : descAdvance rev cs.length (c :: cs) with
    | inr ls =>
      rw [ha] at h3
      simp only [Agree, wResume, kidsIf, List.nil_append, h3.1]
    | inl x =>
      obtain ⟨m, ls⟩ := x
      rw [ha] at h3
      obtain ⟨as', rfl, h4, h5, h6, h7⟩ := h3
      simp only [Agree, wResume, kidsIf, List.nil_append, h5]
      refine ⟨?_, h6, as', cs, rfl, rfl, h4, m, rfl, h7⟩
      simp
  | some d =>
    obtain ⟨as, bs, h1, h2, h3, n, h4, h5⟩ := hs
    simp only at h1 h2 h4 h5
    subst h1 h2 h4
    obtain ⟨h6, h7⟩ := sent_eq (rev := rev) (p := some n) hf (fun m hm => by
      simp only [Option.some.injEq] at hm; exact hm ▸ h5) ok
    have hsent : ∃ as', sent (some n) ok (as ++ bs) = as' ++ bs ∧ as' ≠ [] := by
      by_cases hx : sent (some n) ok (as ++ bs) = as ++ bs
      · exact ⟨as, hx, h3⟩
      · obtain ⟨c, e1, -⟩ := enter_eq (rev := rev) hf h5
        refine ⟨c :: as, ?_, by simp⟩
        unfold sent at hx ⊢
        simp only at hx ⊢
        split at hx
        · rw [if_pos (by assumption), e1]; simp
        · exact absurd rfl hx
    obtain ⟨as', h8, h9⟩ := hsent
    have h10 := descAdvance_eq (rev := rev) (as := as') (bs := bs) he (h8 ▸ h6) h9
    rw [h8] at h7
    rw [fv_append, fv_append, ← List.append_assoc, List.append_cancel_right_eq] at h7
    simp only [dfv, h8]
    have htake : (as ++ bs).take ((as ++ bs).length - bs.length) = as := by simp
    rw [htake]
    cases ha : descAdvance rev bs.length (as' ++ bs) with
    | inr ls =>
      rw [ha] at h10
      simp only [Agree, wResume, ← h7, h10.1]
    | inl x =>
      obtain ⟨m, ls⟩ := x
      rw [ha] at h10
      obtain ⟨as'', rfl, k4, k5, k6, k7⟩ := h10
      simp only [Agree, wResume, ← h7, k5]
      refine ⟨?_, k6, as'', bs, rfl, rfl, k4, m, rfl, k7⟩
      simp

/-! ## nodes -/

/-- The invariant of `nodes()` after the first yield. -/
def NInv (t : Tree α) (st en : Option Path) : NState α → Prop
  | .init _ => False
  | .first n ls => (∀ l ∈ ls, Fine t st en l) ∧ PointsAt ls n
  | .desc s => DInv t st en s ∧ ∃ d, s.depth = some (d + 1)
  | .fwd s => FInv t st en s

/-- The work list of `nodes()`. -/
def nView : NState α → Option (Item α) × List (Item α)
  | .init _ => (none, [])
  | .first n ls => (some n, fv false ls)
  | .desc s => (s.pending, fv false s.stack)
  | .fwd s => (s.1, fv false s.2)

theorem nodesFwd_sim {t : Tree α} {st en : Option Path} (he : ValidEnd t en) {s : Option (Item α) × List (Level α)}
    (hs : FInv t st en s) (ok : Bool) :
    Agree (NInv t st en) nView (wResume (K false st en) (s.1, fv false s.2) ok) (nodesFwd s ok) := by
  have h := fwd_sim (rev := false) (st := st) he s ok hs
  unfold nodesFwd
  cases hr : fwdResume false s ok with
  | none => rw [hr] at h; exact h
  | some x => rw [hr] at h; exact h

/-- The part of `nodes()` in `descendants()`. -/
def nodesStep (d : ℕ) (ls : List (Level α)) : Option (Item α × NState α) :=
  match descAdvance false d ls with
  | .inl (n, ls) => some (n, NState.desc ⟨some d, some n, ls⟩)
  | .inr ls => nodesFwd (none, ls) true

theorem nodesStep_sim {t : Tree α} {st en : Option Path} (he : ValidEnd t en) (as bs : List (Level α))
    (ha : as ≠ []) (hb : bs ≠ []) (hf : ∀ l ∈ as ++ bs, Fine t st en l) :
    Agree (NInv t st en) nView (wResume (K false st en) (none, fv false (as ++ bs)) true) (nodesStep bs.length (as ++ bs)) := by
  have h := descAdvance_eq (rev := false) he hf ha
  unfold nodesStep
  cases hd : descAdvance false bs.length (as ++ bs) with
  | inr ls =>
    rw [hd] at h
    obtain ⟨h1, h2⟩ := h
    have h2 := h2 hb
    subst h2
    have := nodesFwd_sim he (s := (none, ls)) ⟨fun l hl => hf l (by simp [hl]), fun n hn => by cases hn⟩ true
    simpa [fv_append, h1] using this
  | inl x =>
    obtain ⟨n, ls⟩ := x
    rw [hd] at h
    obtain ⟨as', rfl, h4, h5, h6, h7⟩ := h
    obtain ⟨d, hd⟩ : ∃ d, bs.length = d + 1 := ⟨bs.length - 1, by have := List.length_pos_iff.mpr hb; omega⟩
    refine ⟨by simp only [wResume, kidsIf, List.nil_append, fv_append, h5, List.cons_append, nView],
      ⟨h6, as', bs, rfl, rfl, h4, n, rfl, h7⟩, d, by simp [hd]⟩

theorem wResume_none (K : Item α → List (Item α)) (p : Option (Item α)) (ok : Bool) (W : List (Item α)) :
    wResume K (p, W) ok = wResume K (none, kidsIf K p ok ++ W) true := by
  simp [wResume, kidsIf]

theorem nodes_sim {t : Tree α} {st en : Option Path} (he : ValidEnd t en) :
    SimI (NInv t st en) (K false st en) nodesResume nView := by
  intro s ok hs
  cases s with
  | init r => exact absurd hs (by simp [NInv])
  | fwd s => exact nodesFwd_sim he hs ok
  | first n ls =>
    obtain ⟨hf, hp⟩ := hs
    obtain ⟨c, h1, h2, h3, h4, h5⟩ := enter_eq (rev := false) hf hp
    have hf' : ∀ l ∈ [c] ++ ls, Fine t st en l := by
      intro l hl
      rcases List.mem_cons.mp hl with rfl | hl
      · exact h2
      · exact hf l hl
    simp only [nodesResume, nView]
    by_cases hc : (ok && !n.2.children.isEmpty) = true
    · rw [if_pos hc]
      have hok : ok = true := by
        cases ok
        · simp at hc
        · rfl
      subst hok
      rw [wResume_none]
      have hls : ls ≠ [] := by obtain ⟨l, ms, i, rfl, -⟩ := hp; simp
      have := nodesStep_sim he [c] ls (by simp) hls hf'
      simp only [List.singleton_append, fv_cons, h5] at this
      have e : nodesDesc ⟨none, none, ls⟩ true = nodesStep ls.length (c :: ls) := by
        simp only [nodesDesc, descGo, nodesStep, h1, List.length_cons, Nat.add_sub_cancel]
        cases descAdvance false ls.length (c :: ls) <;> rfl
      rw [e]
      exact this
    · rw [if_neg hc]
      have hk : kidsIf (K false st en) (some n) ok = [] := by
        cases ok with
        | false => rfl
        | true =>
          have : n.2.children = [] := by simpa using hc
          simp [kidsIf, K_leaf this]
      rw [wResume_none, hk]
      exact nodesFwd_sim he (s := (none, ls)) ⟨hf, fun n hn => by cases hn⟩ true
  | desc s =>
    obtain ⟨⟨hf, hs⟩, d, hd⟩ := hs
    obtain ⟨depth, pending, stack⟩ := s
    simp only at hd
    subst hd
    simp only at hs
    obtain ⟨as, bs, h1, h2, h3, n, h4, h5⟩ := hs
    subst h1 h4
    obtain ⟨h6, h7⟩ := sent_eq (rev := false) (p := some n) hf (fun m hm => by
      simp only [Option.some.injEq] at hm; exact hm ▸ h5) ok
    have hsent : ∃ as', sent (some n) ok (as ++ bs) = as' ++ bs ∧ as' ≠ [] := by
      by_cases hx : sent (some n) ok (as ++ bs) = as ++ bs
      · exact ⟨as, hx, h3⟩
      · obtain ⟨c, e1, -⟩ := enter_eq (rev := false) hf h5
        refine ⟨c :: as, ?_, by simp⟩
        unfold sent at hx ⊢
        simp only at hx ⊢
        split at hx
        · rw [if_pos (by assumption), e1]; simp
        · exact absurd rfl hx
    obtain ⟨as', h8, h9⟩ := hsent
    have hb : bs ≠ [] := by intro h; simp [h] at h2
    have := nodesStep_sim he as' bs h9 hb (h8 ▸ h6)
    rw [h8] at h7
    rw [h7, h2] at this
    simp only [nodesResume, nView]
    have e : nodesDesc ⟨some (d + 1), some n, as ++ bs⟩ ok = nodesStep (d + 1) (as' ++ bs) := by
      simp only [nodesDesc, descGo, nodesStep, h8]
      cases descAdvance false (d + 1) (as' ++ bs) <;> rfl
    rw [wResume_none, e]
    exact this

end Quickly.NodeRange
