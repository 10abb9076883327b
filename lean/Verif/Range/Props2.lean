import Verif.Range.Props

/-!
# Property C34: being in a range
-/

namespace Quickly.NodeRange

open Quickly.Node Quickly.Node.Spec Spec

variable {α : Type}

/-! ## Lemmas -/

theorem getTrail_eq (base node : Ref) (r : Path) :
    getTrail base node = some r ↔ node.root = base.root ∧ node.path = base.path ++ r := by
  have loop : ∀ (q s : Path) (trail : List ℕ), trail.reverse = s →
      (getTrail.loop base (Ref.ancestorsWithIndex ⟨node.root, q⟩) trail = some r ↔
        node.root = base.root ∧ Above base.path q ∧ q ++ s = base.path ++ r) ∧
      ∀ x, getTrail.loop base (Ref.ancestorsWithIndex ⟨node.root, q⟩) trail = some x → q ++ s = base.path ++ x := by
    intro q
    induction q using List.reverseRecOn with
    | nil =>
      intro s trail hs
      rw [ancestorsWithIndex_nil]
      simp only [getTrail.loop, reduceCtorEq, false_iff]
      refine ⟨?_, fun x h => by cases h⟩
      rintro ⟨-, ⟨i, r, h⟩, -⟩
      simp at h
    | append_singleton q i ih =>
      intro s trail hs
      rw [ancestorsWithIndex_snoc]
      simp only [getTrail.loop]
      by_cases hb : (⟨node.root, q⟩ : Ref) = base
      · subst hb
        simp only [if_true, Option.some.injEq, List.reverse_append, hs, List.reverse_cons, List.reverse_nil, List.nil_append,
          List.singleton_append, List.append_assoc, List.append_cancel_left_eq, true_and]
        refine ⟨⟨?_, ?_⟩, ?_⟩
        · rintro rfl; exact ⟨⟨i, [], rfl⟩, rfl⟩
        · rintro ⟨-, h⟩; exact h
        · rintro x rfl; rfl
      · rw [if_neg hb]
        obtain ⟨h1, h2⟩ := ih (i :: s) (trail ++ [i]) (by simp [hs])
        rw [h1]
        refine ⟨?_, fun x hx => by simpa using h2 x hx⟩
        simp only [List.append_assoc, List.singleton_append]
        refine and_congr_right fun hroot => and_congr_left fun _ => ?_
        constructor
        · rintro ⟨j, t, rfl⟩
          exact ⟨j, t ++ [i], by simp⟩
        · rintro ⟨j, t, ht⟩
          rcases List.eq_nil_or_concat t with rfl | ⟨t', k, rfl⟩
          · obtain ⟨h, -⟩ := List.append_inj' ht (by simp)
            exact absurd (by cases base; simp_all) hb
          · have : q ++ [i] = (base.path ++ j :: t') ++ [k] := by simpa using ht
            exact ⟨j, t', (List.append_inj' this (by simp)).1⟩
  unfold getTrail
  by_cases h : node = base
  · subst h
    simp only [if_true, Option.some.injEq, true_and]
    constructor
    · rintro rfl; simp
    · intro h
      have := congrArg List.length h
      simp at this
      exact this.symm
  · rw [if_neg h]
    have := (loop node.path [] [] rfl).1
    simp only [List.append_nil] at this
    have e : (⟨node.root, node.path⟩ : Ref) = node := rfl
    rw [e] at this
    rw [this]
    refine and_congr_right fun hroot => ⟨fun h => h.2, fun hp => ⟨?_, hp⟩⟩
    cases r with
    | nil => exact absurd (by cases node; cases base; simp_all) h
    | cons i r => exact ⟨i, r, hp⟩

theorem any_ne_zero {n : Tree α} {s : Path} {x : Tree α} (hx : n.get? s = some x) :
    (s.any (· != 0)) = false ↔ ∀ r y, n.get? r = some y → ¬ Left r s := by
  induction s generalizing n with
  | nil =>
    simp only [List.any_nil, true_iff]
    rintro r y - ⟨c, i, j, a, b, -, h, -⟩
    simp at h
  | cons i s ih =>
    obtain ⟨c, hc, hcx⟩ := get?_cons hx
    by_cases hi : i = 0
    · subst hi
      simp only [List.any_cons, bne_self_eq_false, Bool.false_or]
      rw [ih hcx]
      constructor
      · rintro h r y hr ⟨cc, a, b, u, v, rfl, hs, hab⟩
        cases cc with
        | nil => simp at hs; omega
        | cons z cc =>
          simp only [List.cons_append, List.cons.injEq] at hs
          obtain ⟨rfl, rfl⟩ := hs
          obtain ⟨c', hc', hr'⟩ := get?_cons hr
          rw [hc] at hc'
          cases hc'
          exact h _ y hr' ⟨cc, a, b, u, v, rfl, rfl, hab⟩
      · intro h r y hr hl
        exact h (0 :: r) y (by simp only [Tree.get?, hc]; exact hr) (left_cons.mpr (.inr ⟨s, rfl, hl⟩))
    · have h1 : ((i :: s).any (· != 0)) = true := by simp [hi]
      rw [h1]
      simp only [reduceCtorEq, false_iff]
      intro h
      have hlen := (List.getElem?_eq_some_iff.mp hc).1
      have h0 : n.children[0]? = some n.children[0] := List.getElem?_eq_getElem (by omega)
      exact h [0] n.children[0] (by simp only [Tree.get?, h0]) ⟨[], 0, i, [], s, rfl, rfl, by omega⟩

theorem endLoop_iff {n : Tree α} {e : Path} {x : Tree α} (hx : n.get? e = some x) :
    endLoop n e = true ↔ ∀ r y, n.get? r = some y → r ≠ [] → NotBefore e r := by
  induction e generalizing n with
  | nil =>
    simp only [endLoop, List.isEmpty_iff]
    constructor
    · intro h r y hr hne
      cases r with
      | nil => exact absurd rfl hne
      | cons i r =>
        obtain ⟨c, hc, -⟩ := get?_cons hr
        simp [h] at hc
    · intro h
      cases hc : n.children with
      | nil => rfl
      | cons c cs =>
        have := h [0] c (by simp [Tree.get?, hc]) (by simp)
        rw [notBefore_iff] at this
        exact absurd (.inl ⟨0, [], rfl⟩) this
  | cons i e ih =>
    obtain ⟨c, hc, hcx⟩ := get?_cons hx
    have hlen := (List.getElem?_eq_some_iff.mp hc).1
    unfold endLoop
    by_cases hi : (i : ℤ) < (n.children.length : ℤ) - 1
    · rw [if_pos hi]
      simp only [Bool.false_eq_true, false_iff]
      intro h
      have h1 : n.children[i + 1]? = some n.children[i + 1] := List.getElem?_eq_getElem (by omega)
      have := h [i + 1] n.children[i + 1] (by simp only [Tree.get?, h1]) (by simp)
      rw [notBefore_iff] at this
      exact this (.inr ⟨[], i, i + 1, e, [], rfl, rfl, by omega⟩)
    · rw [if_neg hi, hc]
      simp only
      rw [ih hcx]
      constructor
      · intro h r y hr hne
        cases r with
        | nil => exact absurd rfl hne
        | cons j r =>
          obtain ⟨c', hc', hr'⟩ := get?_cons hr
          have hj := (List.getElem?_eq_some_iff.mp hc').1
          by_cases hij : j = i
          · subst hij
            rw [hc] at hc'
            cases hc'
            cases r with
            | nil => exact (notBefore_append_iff [j] e []).mpr (notBefore_nil _)
            | cons k r => exact (notBefore_append_iff [j] e (k :: r)).mpr (h _ y hr' (by simp))
          · exact .inr (.inr ⟨[], j, i, r, e, rfl, rfl, by omega⟩)
      · intro h r y hr hne
        have := h (i :: r) y (by simp only [Tree.get?, hc]; exact hr) (by simp)
        exact (notBefore_append_iff [i] e r).mp this

theorem startInRange_iff {t : Tree α} {st en : Option Path} {l : Level α} (h : Ok t st en l)
    (hv : ∀ s, st = some s → ∃ n, t.get? s = some n) (hs : ∀ s, st = some s → ¬ Left l.node.1 s) :
    l.startInRange = true ↔
      ∀ m : Item α, NodeOf t m → Above l.node.1 m.1 → ∀ s, st = some s → ¬ Left m.1 s := by
  unfold Level.startInRange
  rw [h.hst]
  unfold keptS
  cases hts : truthy st with
  | none =>
    simp only [true_iff]
    rintro m - - s rfl
    cases s with
    | nil => rintro ⟨c, i, j, a, b, -, h, -⟩; simp at h
    | cons => simp [truthy] at hts
  | some s =>
    obtain ⟨rfl, hne⟩ := truthy_some hts
    simp only [Option.some.injEq, forall_eq']
    by_cases hp : l.node.1 <+: s ∧ l.node.1.length < s.length
    · rw [if_pos hp]
      obtain ⟨⟨q, hq⟩, hlen⟩ := hp
      obtain ⟨n, hn⟩ := hv s rfl
      have hdrop : s.drop l.depth = q := by rw [h.hdepth, ← hq]; simp
      simp only [hdrop, Bool.not_eq_true']
      rw [← hq, get?_append, h.hnode] at hn
      rw [any_ne_zero (n := l.node.2) hn]
      constructor
      · rintro hh m hm ⟨i, r, hir⟩ hl
        rw [hir] at hl
        unfold NodeOf at hm
        rw [hir, get?_append, h.hnode] at hm
        refine hh (i :: r) m.2 hm ?_
        rw [← hq] at hl
        obtain ⟨c, a, b, u, v, h1, h2, hab⟩ := hl
        rcases List.append_eq_append_iff.mp h1 with ⟨a', rfl, hr⟩ | ⟨c', hc', hb⟩
        · rw [List.append_assoc, List.append_cancel_left_eq] at h2
          exact ⟨a', a, b, u, v, hr, h2, hab⟩
        · cases c' with
          | nil =>
            simp only [List.append_nil] at hc'
            subst hc'
            simp only [List.append_cancel_left_eq] at h2
            exact ⟨[], a, b, u, v, hb.symm, h2, hab⟩
          | cons z c' =>
            simp only [List.cons_append, List.cons.injEq] at hb
            rw [hc'] at h2
            simp at h2
            omega
      · intro hh r y hr hl
        have hrne : r ≠ [] := by rintro rfl; exact not_left_nil _ hl
        refine hh (l.node.1 ++ r, y) ?_ ?_ ?_
        · unfold NodeOf; rw [get?_append, h.hnode]; exact hr
        · cases r with
          | nil => exact absurd rfl hrne
          | cons i r => exact ⟨i, r, rfl⟩
        · obtain ⟨c, a, b, u, v, h1, h2, hab⟩ := hl
          exact ⟨l.node.1 ++ c, a, b, u, v, by simp [h1], by rw [← hq, h2]; simp, hab⟩
    · rw [if_neg hp]
      simp only [true_iff]
      rintro m - ⟨i, r, hir⟩ hl
      rw [hir] at hl
      have h3 := hs s rfl
      rcases place_cases l.node.1 s with h4 | ⟨j, q, h4⟩ | ⟨j, q, h4⟩ | h4 | h4
      · rw [h4] at hl; exact (left_not_above hl).2 ⟨i, r, rfl⟩
      · exact hp ⟨⟨j :: q, h4.symm⟩, by rw [h4]; simp⟩
      · rw [h4] at hl; exact (left_not_above hl).2 ⟨j, q ++ i :: r, by simp⟩
      · exact h3 h4
      · exact left_asymm hl (by simpa using Left.append h4 [] (i :: r))

theorem endInRange_iff {t : Tree α} {st en : Option Path} {l : Level α} (h : Ok t st en l)
    (hv : ValidEnd t en) (he : ∀ e, en = some e → NotBefore e l.node.1) :
    l.endInRange = true ↔
      ∀ m : Item α, NodeOf t m → Above l.node.1 m.1 → ∀ e, en = some e → NotBefore e m.1 := by
  unfold Level.endInRange
  rw [h.hen]
  unfold keptE
  cases en with
  | none => simp
  | some e =>
    simp only [Option.some.injEq, forall_eq']
    by_cases hp : l.node.1 <+: e
    · rw [if_pos hp]
      obtain ⟨q, hq⟩ := hp
      obtain ⟨n, hn⟩ := hv e rfl
      have hdrop : e.drop l.depth = q := by rw [h.hdepth, ← hq]; simp
      simp only [hdrop]
      rw [← hq, get?_append, h.hnode] at hn
      rw [endLoop_iff (n := l.node.2) hn]
      constructor
      · rintro hh m hm ⟨i, r, hir⟩
        unfold NodeOf at hm
        rw [hir, get?_append, h.hnode] at hm
        have := hh (i :: r) m.2 hm (by simp)
        rw [hir, ← hq]
        exact (notBefore_append_iff _ _ _).mpr this
      · intro hh r y hr hne
        have := hh (l.node.1 ++ r, y) (by unfold NodeOf; rw [get?_append, h.hnode]; exact hr) (by
          cases r with
          | nil => exact absurd rfl hne
          | cons i r => exact ⟨i, r, rfl⟩)
        rw [← hq] at this
        exact (notBefore_append_iff _ _ _).mp this
    · rw [if_neg hp]
      simp only [true_iff]
      rintro m - ⟨i, r, hir⟩
      have h3 := he e rfl
      rcases h3 with h3 | ⟨j, q, h4⟩ | h4
      · exact absurd ⟨[], by simp [h3]⟩ hp
      · exact absurd ⟨j :: q, h4.symm⟩ hp
      · rw [hir]
        exact .inr (.inr (by simpa using Left.append h4 (i :: r) []))

/-! ## C34 -/

/-- C34: after going to a node at `p` that touches the range, `in_range()` is true exactly if
all descendants of the node touch the range, that is, if the range cuts none of them
off. -/
theorem C34_in_range (t : Tree α) (st en : Option Path) (hp : Proper t st en) (p : Path) (n : Tree α)
    (hn : t.get? p = some n) (ht : Touches t st en p) :
    ∃ r, (make t st en).gotoTrail p = some r ∧
      (r.inRange = true ↔ ∀ m : Item α, NodeOf t m → Above p m.1 → Touches t st en m.1) := by
  have hs := (touches_iff hp hn).mp ht
  obtain ⟨ls, h1, h2, h3⟩ := gotoTrail_eq p hn hs
  refine ⟨_, h1, ?_⟩
  -- the level that is looked at
  have key : ∃ l, Ok t st en l ∧ l.node = (p, n) ∧
      Range.inRange ⟨t, st, en, ls⟩ = (l.startInRange && l.endInRange) := by
    rcases h3 with ⟨rfl, rfl⟩ | ⟨-, h3, -, -⟩
    · simp only [Tree.get?, Option.some.injEq] at hn
      subst hn
      exact ⟨_, ok_make t st en, rfl, rfl⟩
    · obtain ⟨l, ms, i, rfl, hi, hit⟩ := h3
      have hl := (h2 l (by simp)).toOk
      obtain ⟨c, hc, hok, hcn, -⟩ := ok_child hl hit
      refine ⟨c, hok, hcn, ?_⟩
      simp only [Range.inRange, hi, Level.here, hc]
      split
      · rename_i hlt
        rw [decide_eq_true_eq] at hlt
        have hcs : c.st = none ∧ c.en = none := by
          unfold Level.childAt at hc
          rw [hit] at hc
          simp only [Option.some.injEq] at hc
          subst hc
          simp only [Level.make, Level.childSt, Level.childEn]
          refine ⟨?_, ?_⟩
          · split
            · rw [if_neg (by omega)]
            · rfl
          · split
            · rw [if_neg (by omega)]
            · rfl
        simp [Level.startInRange, Level.endInRange, hcs, truthy]
      · rfl
  obtain ⟨l, hok, hln, he⟩ := key
  rw [he, Bool.and_eq_true, startInRange_iff hok hp.1 (by rw [hln]; exact (steps_iff.mp hs).1),
    endInRange_iff hok hp.2.1 (by rw [hln]; exact (steps_iff.mp hs).2), hln]
  constructor
  · rintro ⟨k1, k2⟩ m hm ha
    exact (touches_iff hp hm).mpr (steps_iff.mpr ⟨k1 m hm ha, k2 m hm ha⟩)
  · intro k
    have k' : ∀ m : Item α, NodeOf t m → Above p m.1 → _ := fun m hm ha =>
      steps_iff.mp ((touches_iff hp hm).mp (k m hm ha))
    exact ⟨fun m hm ha => (k' m hm ha).1, fun m hm ha => (k' m hm ha).2⟩

/-- C34: `node in range` is true exactly if the node is a descendant of the ancestor of
the range that is between the start and the end (both included), or the
ancestor itself when `is_full()` is true. -/
theorem C34_contains (t : Tree α) (st en : Option Path) (base node : Ref) :
    (make t st en).contains base node = true ↔
      node.root = base.root ∧ ∃ r, node.path = base.path ++ r ∧
        if r = [] then (make t st en).isFull = true else Within st en r := by
  unfold Range.contains
  have key : ∀ r, (make t st en).trailInRange r = true ↔
      if r = [] then (make t st en).isFull = true else Within st en r := by
    intro r
    unfold Range.trailInRange
    by_cases hr : r = []
    · simp [hr]
    · simp only [hr, if_false]
      have e1 : beforeStart st r = true ↔ ¬ ∀ s, st = some s → NotBefore r s := by
        unfold beforeStart
        cases hs : truthy st with
        | none =>
          simp only [Bool.false_eq_true, false_iff, not_not]
          rintro s rfl
          cases s with
          | nil => exact notBefore_nil _
          | cons => simp [truthy] at hs
        | some s =>
          obtain ⟨rfl, -⟩ := truthy_some hs
          simp [pyLt_iff, notBefore_iff]
      have e2 : afterEnd en r = true ↔ ¬ ∀ e, en = some e → NotBefore e r := by
        unfold afterEnd
        cases en with
        | none => simp
        | some e => simp [pyLt_iff, notBefore_iff]
      show (if beforeStart st r = true then false else if afterEnd en r = true then false else true) = true ↔ _
      unfold Within
      by_cases c1 : beforeStart st r = true
      · have := e1.mp c1
        simp only [c1, if_true, Bool.false_eq_true, false_iff]
        exact fun h => this h.1
      · by_cases c2 : afterEnd en r = true
        · have := e2.mp c2
          simp only [c1, c2, if_true, if_false, Bool.false_eq_true, false_iff]
          exact fun h => this h.2
        · simp only [c1, c2, if_false, Bool.false_eq_true, true_iff]
          exact ⟨not_not.mp (fun hn => c1 (e1.mpr hn)), not_not.mp (fun hn => c2 (e2.mpr hn))⟩
  cases hg : getTrail base node with
  | none =>
    simp only [Bool.false_eq_true, false_iff]
    rintro ⟨h1, r, h2, -⟩
    have := (getTrail_eq base node r).mpr ⟨h1, h2⟩
    rw [hg] at this
    cases this
  | some r =>
    obtain ⟨h1, h2⟩ := (getTrail_eq base node r).mp hg
    simp only [key]
    constructor
    · intro h; exact ⟨h1, r, h2, h⟩
    · rintro ⟨-, r', h3, h4⟩
      rw [h2, List.append_cancel_left_eq] at h3
      exact h3 ▸ h4

/-- C34: `is_full()` is true exactly if all descendants of the ancestor touch the range. -/
theorem C34_is_full (t : Tree α) (st en : Option Path) (hp : Proper t st en) :
    (make t st en).isFull = true ↔ ∀ m : Item α, NodeOf t m → m.1 ≠ [] → Touches t st en m.1 := by
  have e : (make t st en).isFull =
      ((Level.make ([], t) st en 0).startInRange && (Level.make ([], t) st en 0).endInRange) := rfl
  have ok := ok_make t st en
  have ab : ∀ m : Path, Above (Level.make ([], t) st en 0).node.1 m ↔ m ≠ [] := by
    intro m
    constructor
    · rintro ⟨i, r, rfl⟩; simp
    · intro h
      cases m with
      | nil => exact absurd rfl h
      | cons i r => exact ⟨i, r, rfl⟩
  rw [e, Bool.and_eq_true, startInRange_iff ok hp.1 (fun s _ => not_left_nil _),
    endInRange_iff ok hp.2.1 (fun e _ => notBefore_nil _)]
  simp only [ab]
  constructor
  · rintro ⟨k1, k2⟩ m hm ha
    exact (touches_iff hp hm).mpr (steps_iff.mpr ⟨k1 m hm ha, k2 m hm ha⟩)
  · intro k
    have k' : ∀ m : Item α, NodeOf t m → m.1 ≠ [] → _ := fun m hm ha =>
      steps_iff.mp ((touches_iff hp hm).mp (k m hm ha))
    exact ⟨fun m hm ha => (k' m hm ha).1, fun m hm ha => (k' m hm ha).2⟩

/-- C34, the documented meaning ("completely within this range"), as far as it holds: a node
below the ancestor and all its descendants are between the start and the end exactly
if both `node in range` is true and `in_range()` is true after going to the node. -/
theorem C34_completely_partial (t : Tree α) (st en : Option Path) (hp : Proper t st en) (base node : Ref) (p : Path)
    (n : Tree α) (hn : t.get? p = some n) (hne : p ≠ []) (hr : node.root = base.root)
    (hpath : node.path = base.path ++ p) (ht : Touches t st en p) :
    ∃ r, (make t st en).gotoTrail p = some r ∧
      ((make t st en).contains base node = true ∧ r.inRange = true ↔
        ∀ q m, t.get? (p ++ q) = some m → Within st en (p ++ q)) := by
  obtain ⟨r, h1, h2⟩ := C34_in_range t st en hp p n hn ht
  refine ⟨r, h1, ?_⟩
  rw [h2, C34_contains]
  constructor
  · rintro ⟨⟨-, p', h3, h4⟩, h5⟩ q m hm
    rw [hpath, List.append_cancel_left_eq] at h3
    subst h3
    rw [if_neg hne] at h4
    cases q with
    | nil => simpa using h4
    | cons i q =>
      have h6 := h5 (p ++ i :: q, m) hm ⟨i, q, rfl⟩
      have h7 := steps_iff.mp ((touches_iff hp hm).mp h6)
      exact ⟨fun s hs => notBefore_trans (notBefore_append p (i :: q)) (h4.1 s hs), h7.2⟩
  · intro h
    refine ⟨⟨hr, p, hpath, ?_⟩, ?_⟩
    · rw [if_neg hne]
      simpa using h [] n (by simpa using hn)
    · rintro m hm ⟨i, q, hq⟩
      refine ⟨[], m.2, by rw [List.append_nil]; exact hm, ?_⟩
      unfold NodeOf at hm
      rw [hq] at hm
      simpa [hq] using h (i :: q) m.2 hm

/-- C34, what the documented claim is not true for: with an end on C (the first child of B)
the node B is in the range according to `in`, although its second child D is
outside the range and B is not the end node. -/
theorem C34_contains_not_complete :
    ∃ (t : Tree Char) (e p q : Path) (m : Tree Char), Proper t none (some e) ∧ p ≠ e ∧
      (make t none (some e)).contains ⟨0, []⟩ ⟨0, p⟩ = true ∧ t.get? (p ++ q) = some m ∧
      ¬ Within none (some e) (p ++ q) ∧ ¬ Touches t none (some e) (p ++ q) := by
  have hp : Proper exTree none (some [0, 0]) := by
    refine ⟨?_, ?_, ?_⟩
    · rintro s ⟨⟩
    · rintro s ⟨⟩; exact ⟨_, rfl⟩
    · rintro s e ⟨⟩
  have hb : ¬ NotBefore [0, 0] [0, 1] := by
    rw [notBefore_iff, not_not]
    exact .inr ⟨[0], 0, 1, [], [], rfl, rfl, by decide⟩
  refine ⟨exTree, [0, 0], [0], [1], leaf 'D', hp, by decide, ?_, rfl, ?_, ?_⟩
  · rw [C34_contains]
    refine ⟨rfl, [0], rfl, ?_⟩
    rw [if_neg (by simp)]
    exact ⟨fun s h => (by cases h), fun e h => by cases h; exact .inr (.inl ⟨0, [], rfl⟩)⟩
  · rintro ⟨-, h⟩
    exact hb (h _ rfl)
  · intro h
    have := steps_iff.mp ((touches_iff hp (n := leaf 'D') rfl).mp h)
    exact hb (this.2 _ rfl)

theorem left_take_iff (p s : Path) : Left p (s.take p.length) ↔ Left p s := by
  constructor
  · intro h
    have := Left.append h [] (s.drop p.length)
    simpa [List.take_append_drop] using this
  · rintro ⟨c, i, j, r, q, rfl, rfl, h⟩
    refine ⟨c, i, j, r, q.take r.length, rfl, ?_, h⟩
    have : (c ++ i :: r).length = c.length + (r.length + 1) := by simp
    rw [this, List.take_length_add_append]
    rfl

theorem take_left_iff (p e : Path) : Left (e.take p.length) p ↔ Left e p := by
  constructor
  · intro h
    have := Left.append h (e.drop p.length) []
    simpa [List.take_append_drop] using this
  · rintro ⟨c, i, j, r, q, rfl, rfl, h⟩
    refine ⟨c, i, j, r.take q.length, q, ?_, rfl, h⟩
    have : (c ++ j :: q).length = c.length + (q.length + 1) := by simp
    rw [this, List.take_length_add_append]
    rfl

/-- C34: `range & node` is true exactly if the node is the ancestor of the range or below it,
and touches the range; for ranges that do not end at the ancestor itself. -/
theorem C34_intersects (t : Tree α) (st en : Option Path) (hp : Proper t st en) (hen : en ≠ some []) (base node : Ref)
    (p : Path) (n : Tree α) (hn : t.get? p = some n) (hr : node.root = base.root) (hpath : node.path = base.path ++ p) :
    (make t st en).intersects base node = true ↔ Touches t st en p := by
  rw [touches_iff hp hn, steps_iff]
  unfold Range.intersects
  rw [(getTrail_eq base node p).mpr ⟨hr, hpath⟩]
  simp only [Range.trailIntersects, Bool.and_eq_true]
  refine and_congr ?_ ?_
  · show (match truthy st with | some s => !pyLt p (s.take p.length) | none => true) = true ↔ _
    cases hs : truthy st with
    | none =>
      simp only [true_iff]
      rintro s rfl
      cases s with
      | nil => rintro ⟨c, i, j, a, b, -, h, -⟩; simp at h
      | cons => simp [truthy] at hs
    | some s =>
      obtain ⟨rfl, -⟩ := truthy_some hs
      simp only [Bool.not_eq_true', Option.some.injEq, forall_eq']
      rw [← Bool.not_eq_true, pyLt_iff, not_iff_not]
      constructor
      · rintro (⟨i, r, h⟩ | h)
        · have := congrArg List.length h
          simp at this
          omega
        · exact (left_take_iff _ _).mp h
      · intro h; exact .inr ((left_take_iff _ _).mpr h)
  · show (match truthy en with | some e => !pyLt (e.take p.length) p | none => true) = true ↔ _
    cases he : truthy en with
    | none =>
      simp only [true_iff]
      rintro e rfl
      cases e with
      | nil => exact absurd rfl hen
      | cons => simp [truthy] at he
    | some e =>
      obtain ⟨rfl, -⟩ := truthy_some he
      simp only [Bool.not_eq_true', Option.some.injEq, forall_eq']
      rw [← Bool.not_eq_true, pyLt_iff, notBefore_iff, not_iff_not]
      constructor
      · rintro (⟨i, r, h⟩ | h)
        · have hlen := congrArg List.length h
          simp only [List.length_append, List.length_take, List.length_cons] at hlen
          have : e.take p.length = e := List.take_of_length_le (by omega)
          exact .inl ⟨i, r, by rw [this] at h; exact h⟩
        · exact .inr ((take_left_iff _ _).mp h)
      · rintro (⟨i, r, h⟩ | h)
        · have : e.take p.length = e := List.take_of_length_le (by rw [h]; simp)
          exact .inl ⟨i, r, by rw [this]; exact h⟩
        · exact .inr ((take_left_iff _ _).mpr h)

/-- C34: nodes of other trees, or not below the ancestor, never are in the range and do
not intersect it. -/
theorem C34_outside (t : Tree α) (st en : Option Path) (base node : Ref)
    (h : node.root ≠ base.root ∨ ¬ AboveOrSelf base.path node.path) :
    (make t st en).contains base node = false ∧ (make t st en).intersects base node = false := by
  have hg : getTrail base node = none := by
    cases hg : getTrail base node with
    | none => rfl
    | some r =>
      obtain ⟨h1, h2⟩ := (getTrail_eq base node r).mp hg
      rcases h with h | h
      · exact absurd h1 h
      · exact absurd ⟨r, h2⟩ h
  simp [Range.contains, Range.intersects, hg]

/-- C34, what the claim for `&` is not true for: when the end node is the ancestor itself,
so that no descendant is in the range, every descendant is said to intersect it. -/
theorem C34_intersects_end_at_ancestor :
    ∃ (t : Tree Char) (p : Path), Proper t none (some []) ∧ (make t none (some [])).bool = false ∧
      (make t none (some [])).intersects ⟨0, []⟩ ⟨0, p⟩ = true ∧ ¬ Touches t none (some []) p := by
  refine ⟨exTree, [0], ⟨?_, ?_, ?_⟩, by decide, ?_, ?_⟩
  · rintro s ⟨⟩
  · rintro s ⟨⟩; exact ⟨_, rfl⟩
  · rintro s e ⟨⟩
  · unfold Range.intersects
    rw [(getTrail_eq ⟨0, []⟩ ⟨0, [0]⟩ [0]).mpr ⟨rfl, rfl⟩]
    rfl
  · rintro ⟨r, n, -, -, h⟩
    have := h _ rfl
    rw [notBefore_iff] at this
    exact this (.inl ⟨0, r, rfl⟩)

/-- `goto(node)`, from a fresh range, returns the value of `range & node`, and if it is true the
node is the current node. -/
theorem goto_fresh (t : Tree α) (st en : Option Path) (hp : Proper t st en) (hen : en ≠ some []) (base node : Ref)
    (p : Path) (n : Tree α) (hn : t.get? p = some n) (hr : node.root = base.root) (hpath : node.path = base.path ++ p) :
    ∃ r, (make t st en).goto base node = some ((make t st en).intersects base node, r) ∧
      ((make t st en).intersects base node = true → r.node = some (p, n)) := by
  have hg := (getTrail_eq base node p).mpr ⟨hr, hpath⟩
  have hi := C34_intersects t st en hp hen base node p n hn hr hpath
  have e : (make t st en).intersects base node = (make t st en).trailIntersects p := by
    unfold Range.intersects; rw [hg]
  unfold Range.goto
  rw [hg]
  simp only
  rw [← e]
  cases hb : (make t st en).intersects base node with
  | false => exact ⟨make t st en, by simp, by simp⟩
  | true =>
    obtain ⟨r, h1, h2, -⟩ := C33_descendants_send false t st en hp p n hn (hi.mp hb) always
    exact ⟨r, by simp [h1], fun _ => h2⟩

/-- The range was made with this tree and these trails, and was used in some way: its
outermost level is still that of the ancestor. -/
def Used (r : Range α) (t : Tree α) (st en : Option Path) : Prop :=
  r.tree = t ∧ r.st = st ∧ r.en = en ∧
    ∃ k, r.stack.getLast? = some { Level.make ([], t) st en 0 with index := k }

theorem used_reset {r : Range α} {t : Tree α} {st en : Option Path} (h : Used r t st en) : r.reset = make t st en := by
  obtain ⟨h1, h2, h3, k, h4⟩ := h
  simp only [Range.reset, h4, make, h1, h2, h3]
  rfl

/-- A new range, and what the operations make of a used one: stepping to a next
or previous node, `enter()`, `leave()`. -/
theorem used_ops {r : Range α} {t : Tree α} {st en : Option Path} (h : Used r t st en) :
    Used (make t st en) t st en ∧
    Used { r with stack := enter r.stack } t st en ∧
    (∀ rev l ls n l', r.stack = l :: ls → l.step rev = some (n, l') → Used { r with stack := l' :: ls } t st en) ∧
    (∀ l l' ls, r.stack = l :: l' :: ls → Used { r with stack := l' :: ls } t st en) := by
  obtain ⟨h1, h2, h3, k, h4⟩ := h
  refine ⟨⟨rfl, rfl, rfl, none, rfl⟩, ⟨h1, h2, h3, k, ?_⟩, ?_, ?_⟩
  · cases hs : r.stack with
    | nil => rw [hs] at h4; simp at h4
    | cons l ls =>
      rw [hs] at h4
      simp only [enter]
      split
      · exact h4
      · split
        · rw [List.getLast?_cons_cons]; exact h4
        · exact h4
  · intro rev l ls n l' hs hl
    rw [hs] at h4
    cases ls with
    | cons m ms =>
      rw [List.getLast?_cons_cons] at h4
      exact ⟨h1, h2, h3, k, by simp only [List.getLast?_cons_cons]; exact h4⟩
    | nil =>
      simp only [List.getLast?_singleton, Option.some.injEq] at h4
      have : ∃ j, l' = { l with index := j } := by
        cases rev
        · simp only [Level.step, Bool.false_eq_true, if_false, Level.next] at hl
          split at hl
          · cases hl
          · split at hl
            · cases hl; exact ⟨_, rfl⟩
            · cases hl
        · simp only [Level.step, if_true, Level.prev] at hl
          split at hl
          · cases hl
          · split at hl
            · cases hl; exact ⟨_, rfl⟩
            · cases hl
      obtain ⟨j, rfl⟩ := this
      subst h4
      exact ⟨h1, h2, h3, j, rfl⟩
  · intro l l' ls hs
    rw [hs, List.getLast?_cons_cons] at h4
    exact ⟨h1, h2, h3, k, h4⟩

/-- C34: `goto(node)`, whatever was done with the range before, returns the value of
`range & node`, and if it is true the node is the current node. -/
theorem C34_goto (t : Tree α) (st en : Option Path) (hp : Proper t st en) (hen : en ≠ some []) (base node : Ref)
    (p : Path) (n : Tree α) (hn : t.get? p = some n) (hr : node.root = base.root) (hpath : node.path = base.path ++ p)
    (r : Range α) (hu : Used r t st en) :
    ∃ r', r.goto base node = some ((make t st en).intersects base node, r') ∧
      ((make t st en).intersects base node = true → r'.node = some (p, n)) := by
  have hg := (getTrail_eq base node p).mpr ⟨hr, hpath⟩
  have e : (make t st en).intersects base node = (make t st en).trailIntersects p := by
    unfold Range.intersects; rw [hg]
  have e2 : r.trailIntersects p = (make t st en).trailIntersects p := by
    simp only [Range.trailIntersects, hu.2.1, hu.2.2.1, make]
  obtain ⟨r', h1, h2⟩ := goto_fresh t st en hp hen base node p n hn hr hpath
  unfold Range.goto at h1 ⊢
  rw [hg] at h1 ⊢
  simp only at h1 ⊢
  rw [e2]
  cases hb : (make t st en).trailIntersects p with
  | false => exact ⟨r, by simp [e, hb], by simp [e, hb]⟩
  | true =>
    rw [hb, if_pos rfl] at h1
    refine ⟨r', ?_, h2⟩
    rw [if_pos rfl]
    have : r.gotoTrail p = (make t st en).gotoTrail p := by
      unfold Range.gotoTrail
      rw [used_reset hu]
      have : (make t st en).reset = make t st en := rfl
      rw [this]
    rw [this]
    exact h1

example : (make exTree (some [0, 1]) (some [1, 0])).inRange = false ∧
    ((make exTree (some [0, 1]) (some [1, 0])).gotoTrail [0]).map (·.inRange) = some false ∧
    ((make exTree (some [0, 1]) (some [1, 0])).gotoTrail [0, 1]).map (·.inRange) = some true ∧
    ((make exTree (some [0, 0]) (some [1, 0])).gotoTrail [0]).map (·.inRange) = some true := by decide

/-- A range that was used: its first node was visited, and entered. -/
example : ∃ r, Used r exTree (some [0, 1]) (some [1, 0]) ∧ r.stack.length = 2 ∧ r.stack ≠ (make exTree (some [0, 1]) (some [1, 0])).stack := by
  let r0 := make exTree (some [0, 1]) (some [1, 0])
  have h0 : Used r0 exTree (some [0, 1]) (some [1, 0]) := by
    exact ⟨rfl, rfl, rfl, _, rfl⟩
  have h1 := (used_ops h0).2.2.1 false _ _ _ _ rfl rfl
  refine ⟨_, (used_ops h1).2.1, by decide, ?_⟩
  intro h
  have := congrArg List.length h
  revert this
  decide

end Quickly.NodeRange
