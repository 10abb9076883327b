import Verif.Range.Lemmas2

/-!
# Properties C33-C35: ranges
-/

namespace Quickly.NodeRange

open Quickly.Node Quickly.Node.Spec Spec

variable {α : Type}

/-! ## C33 -/

/-- C33: from any node at `p` that touches the range (the ancestor of the range is the node
at `[]`), and for any values sent, `descendants(reverse)` ends and yields, in
order, exactly the descendants of the node that touch the range, except those below a
node after which False was sent. -/
theorem C33_descendants_send (rev : Bool) (t : Tree α) (st en : Option Path) (hp : Proper t st en) (p : Path)
    (n : Tree α) (hn : t.get? p = some n) (ht : Touches t st en p) (dec : List (Item α) → Bool) :
    ∃ r, (make t st en).gotoTrail p = some r ∧ r.node = some (p, n) ∧
    (∃ out, Runs (descResume rev) dec true ⟨none, none, r.stack⟩ [] out) ∧
    ∀ out, Runs (descResume rev) dec true ⟨none, none, r.stack⟩ [] out →
      Lists rev (fun m => (NodeOf t m ∧ Above p m.1 ∧ Touches t st en m.1) ∧
        ∀ a ∈ out, Above a.1 m.1 → dec (upTo a.1 out) = true) out := by
  have hs := (touches_iff hp hn).mp ht
  obtain ⟨ls, h1, h2, h3⟩ := gotoTrail_eq p hn hs
  have hv : ValidEnd t en := hp.2.1
  have hview : dfv rev ⟨none, none, ls⟩ = K rev st en (p, n) := by
    unfold dfv
    simp only
    rcases h3 with ⟨rfl, rfl⟩ | ⟨-, h3, -, -⟩
    · simp only [Tree.get?, Option.some.injEq] at hn
      subst hn
      simp [enter, Level.make, fv]
      exact remain_none (ok_make t st en) rfl
    · obtain ⟨c, e1, -, -, -, e2⟩ := enter_eq (rev := rev) h2 h3
      simp [e1, fv, e2]
  have hinv : DInv t st en ⟨none, none, ls⟩ := by
    refine ⟨h2, (p, n), rfl, ?_⟩
    rcases h3 with ⟨rfl, rfl⟩ | ⟨-, h3, -, -⟩
    · simp only [Tree.get?, Option.some.injEq] at hn
      subst hn
      exact .inl ⟨_, rfl, rfl, rfl⟩
    · exact .inr h3
  refine ⟨_, h1, ?_, ?_⟩
  · rcases h3 with ⟨rfl, rfl⟩ | ⟨-, h3, -, -⟩
    · simp only [Tree.get?, Option.some.injEq] at hn
      subst hn
      rfl
    · obtain ⟨l, ms, i, rfl, hi, hit⟩ := h3
      simp [Range.node, Level.current, hi, hit]
  · have h := gen_listsI (goes_K rev st en) (desc_sim (rev := rev) (st := st) hv) hinv (W := K rev st en (p, n))
      (by simp only [hview])
      (slice_pairwise rev _ _ _) (P := fun m => NodeOf t m ∧ Above p m.1 ∧ Touches t st en m.1) ?_
    · exact ⟨h.1 dec, h.2 dec⟩
    · intro m
      constructor
      · rintro ⟨w, hw, hd0⟩
        obtain ⟨r, k1, k2, k3⟩ := desc_K.mp (Desc.step hw hd0)
        simp only at k1 k2 k3
        have k4 : t.get? m.1 = some m.2 := by rw [k1, get?_append, hn]; exact k2
        refine ⟨k4, ?_, (touches_iff hp k4).mpr (by rw [k1]; exact steps_append.mpr ⟨hs, k3⟩)⟩
        obtain ⟨i, hi, -⟩ := mem_K.mp hw
        obtain ⟨r2, hr2, -⟩ := desc_K.mp hd0
        refine ⟨i, r2, ?_⟩
        rw [hr2, (itemAt_some.mp hi).1]
        simp
      · rintro ⟨k1, ⟨i, r, hir⟩, k3⟩
        have k4 := (touches_iff hp k1).mp k3
        rw [hir, steps_append] at k4
        have hd : Desc (K rev st en) (p, n) m := desc_K.mpr ⟨i :: r, hir, by
          unfold NodeOf at k1
          rw [hir, get?_append, hn] at k1
          exact k1, k4.2⟩
        rcases desc_iff.mp hd with rfl | h
        · exact absurd (congrArg List.length hir) (by simp)
        · exact h

/-- C33: `nodes()`, for a range of which the end is not before the start and for any
values sent, ends and yields, in document order, exactly the nodes between the start
and the end (both included), except the ancestor of the range itself and except the nodes
below a node after which False was sent. -/
theorem C33_nodes_send (t : Tree α) (st en : Option Path) (hp : Proper t st en) (dec : List (Item α) → Bool) :
    (∃ out, Runs nodesResume dec true (.init (make t st en)) [] out) ∧
    ∀ out, Runs nodesResume dec true (.init (make t st en)) [] out →
      Lists false (fun m => (NodeOf t m ∧ m.1 ≠ [] ∧ Within st en m.1) ∧
        ∀ a ∈ out, Above a.1 m.1 → dec (upTo a.1 out) = true) out := by
  have hv : ValidEnd t en := hp.2.1
  cases hs : truthy st with
  | none =>
    have hst : ∀ (s : Path), st = some s → s = [] := by
      rintro s rfl
      cases s with
      | nil => rfl
      | cons => simp [truthy] at hs
    have hW : fv false [Level.make ([], t) st en 0] = K false st en ([], t) := by
      simp only [fv, List.map_cons, List.map_nil, List.flatten_cons, List.flatten_nil, List.append_nil]
      exact remain_none (ok_make t st en) rfl
    have h := gen_listsA (goes_K false st en) (nodes_sim (st := st) hv) (s := .init (make t st en))
      (W := K false st en ([], t)) ?_ (slice_pairwise false _ _ _)
      (P := fun m => NodeOf t m ∧ m.1 ≠ [] ∧ Within st en m.1) ?_
    · exact ⟨h.1 dec, h.2 dec⟩
    · have := nodesFwd_sim (t := t) (st := st) hv (s := (none, [Level.make ([], t) st en 0]))
        ⟨by simpa using fine_make t st en, fun n hn => by cases hn⟩ true
      simp only [hW] at this
      have e : (make t st en).st = st := rfl
      simp only [nodesResume, e, hs]
      exact this
    · intro m
      have hwi : Within st en m.1 ↔ Steps st en [] m.1 := by
        refine ⟨within_steps, fun h => ⟨fun s h1 => ?_, (steps_iff.mp h).2⟩⟩
        rw [hst s h1]
        exact notBefore_nil _
      constructor
      · rintro ⟨w, hw, hd⟩
        obtain ⟨i, hi, -⟩ := mem_K.mp hw
        obtain ⟨r2, hr2, -⟩ := desc_K.mp hd
        obtain ⟨r, k1, k2, k3⟩ := desc_K.mp (Desc.step hw hd)
        simp only [List.nil_append] at k1
        subst k1
        refine ⟨k2, ?_, hwi.mpr k3⟩
        rw [hr2, (itemAt_some.mp hi).1]
        simp
      · rintro ⟨k1, k2, k3⟩
        have hd : Desc (K false st en) ([], t) m := desc_K.mpr ⟨m.1, rfl, k1, hwi.mp k3⟩
        rcases desc_iff.mp hd with rfl | h
        · exact absurd rfl k2
        · exact h
  | some s =>
    obtain ⟨rfl, hne⟩ := truthy_some hs
    obtain ⟨n, hn⟩ := hp.1 s rfl
    have hss : Steps (some s) en [] s := by
      refine steps_iff.mpr ⟨fun s' h => ?_, fun e he => hp.2.2 s e rfl he⟩
      cases h
      exact left_irrefl _
    obtain ⟨ls, h1, h2, h3⟩ := gotoTrail_eq s hn hss
    rcases h3 with ⟨rfl, -⟩ | ⟨-, h3, h4, h5⟩
    · exact absurd rfl hne
    have hnode : Range.node ⟨t, some s, en, ls⟩ = some (s, n) := by
      obtain ⟨l, ms, i, rfl, hi, hit⟩ := h3
      simp [Range.node, Level.current, hi, hit]
    have h := gen_listsA (goes_K false (some s) en) (nodes_sim (st := some s) hv) (s := .init (make t (some s) en))
      (W := (s, n) :: fv false ls) ?_ ?_
      (P := fun m => NodeOf t m ∧ m.1 ≠ [] ∧ Within (some s) en m.1) ?_
    · exact ⟨h.1 dec, h.2 dec⟩
    · have e : (make t (some s) en).st = some s := rfl
      simp only [nodesResume, e, hs, h1, hnode]
      exact ⟨rfl, h2, h3⟩
    · rw [List.pairwise_cons]
      refine ⟨fun w hw => ?_, h4⟩
      exact ((h5 w).mp ⟨w, hw, .refl _⟩).2.1
    · intro m
      simp only [List.mem_cons, exists_eq_or_imp]
      rw [h5 m]
      constructor
      · rintro (h | ⟨k1, k2, k3⟩)
        · obtain ⟨r, k1, k2, k3⟩ := desc_K.mp h
          simp only at k1 k2 k3
          have k4 : Steps (some s) en [] m.1 := by rw [k1]; exact steps_append.mpr ⟨hss, k3⟩
          refine ⟨?_, ?_, ?_, (steps_iff.mp k4).2⟩
          · unfold NodeOf; rw [k1, get?_append, hn]; exact k2
          · rw [k1]; simp [hne]
          · intro s' h; cases h; rw [k1]; exact notBefore_append _ _
        · refine ⟨k1, ?_, ?_, (steps_iff.mp k3).2⟩
          · intro h
            rw [h] at k2
            obtain ⟨c, i, j, r, q, -, h2, -⟩ := k2
            simp at h2
          · intro s' h; cases h; exact .inr (.inr k2)
      · rintro ⟨k1, k2, k3⟩
        have k4 := within_steps k3
        rcases k3.1 s rfl with h | ⟨i, r, h⟩ | h
        · unfold NodeOf at k1
          left
          have : m = (s, n) := Prod.ext h (by simp only; rw [h] at k1; rw [hn] at k1; exact (Option.some.inj k1).symm)
          rw [this]
          exact .refl _
        · left
          rw [h, steps_append] at k4
          refine desc_K.mpr ⟨i :: r, h, ?_, k4.2⟩
          unfold NodeOf at k1
          rw [h, get?_append, hn] at k1
          exact k1
        · exact .inr ⟨k1, h, k4⟩

/-- C33: the same for a plain loop over `nodes()`. -/
theorem C33_nodes (t : Tree α) (st en : Option Path) (hp : Proper t st en) :
    (∃ out, Runs nodesResume always true (.init (make t st en)) [] out) ∧
    ∀ out, Runs nodesResume always true (.init (make t st en)) [] out →
      Lists false (fun m => NodeOf t m ∧ m.1 ≠ [] ∧ Within st en m.1) out := by
  have h := C33_nodes_send t st en hp always
  refine ⟨h.1, fun out ho => ?_⟩
  have := h.2 out ho
  exact ⟨this.1, fun m => (this.2 m).trans ⟨fun h => h.1, fun h => ⟨h, fun _ _ _ => rfl⟩⟩⟩

/-- From D to F in the example tree: D, E, F; from B to E with a False after B. -/
example : (runFor nodesResume always 20 true (.init (make exTree (some [0, 1]) (some [1, 0]))) []).map (·.2.val) =
      ['D', 'E', 'F'] ∧
    (runFor nodesResume (fun hist => hist.length != 1) 20 true (.init (make exTree (some [0]) (some [1, 1]))) []).map
      (·.2.val) = ['B', 'E', 'F', 'G'] := by decide +kernel
example : Proper exTree (some [0, 1]) (some [1, 0]) := by
  refine ⟨?_, ?_, ?_⟩
  · rintro s ⟨⟩; exact ⟨_, rfl⟩
  · rintro s ⟨⟩; exact ⟨_, rfl⟩
  · rintro s e ⟨⟩ ⟨⟩
    exact .inr (.inr ⟨[], 0, 1, [1], [0], rfl, rfl, by decide⟩)
example : Touches exTree (some [0, 1]) (some [1, 0]) [0] :=
  ⟨[1], leaf 'D', rfl, fun s h => by cases h; exact .inl rfl, fun e h => by
    cases h; exact .inr (.inr ⟨[], 0, 1, [1], [0], rfl, rfl, by decide⟩)⟩

theorem docBefore_append_iff (c p q : Path) : DocBefore (c ++ p) (c ++ q) ↔ DocBefore p q := by
  rw [← lt_iff_docBefore, ← lt_iff_docBefore]
  induction c with
  | nil => rfl
  | cons x c ih => simp [List.cons_lt_cons_iff, ih]

theorem notBefore_append_iff (c p q : Path) : NotBefore (c ++ p) (c ++ q) ↔ NotBefore p q := by
  rw [notBefore_iff, notBefore_iff, docBefore_append_iff]

theorem between_prefix {c x y m : Path} (h1 : NotBefore m (c ++ x)) (h2 : NotBefore (c ++ y) m) : ∃ r, m = c ++ r := by
  rw [notBefore_iff] at h1 h2
  rcases place_cases c m with h | ⟨i, r, h⟩ | ⟨i, r, h⟩ | h | h
  · exact ⟨[], by simp [h]⟩
  · exact ⟨i :: r, h⟩
  · exact absurd (.inl ⟨i, r ++ x, by simp [h]⟩) h1
  · exact absurd (.inr (by simpa using Left.append h y [])) h2
  · exact absurd (.inr (by simpa using Left.append h [] x)) h1

/-- C33: `Range.from_nodes(a, b, from_root)` raises a ValueError when no node is given or
when the nodes are of different trees; otherwise it makes a range whose trails lead from
its ancestor to exactly the given nodes, and the ancestor is the root when that is
asked for or only one node is given. -/
theorem C33_from_nodes (a b : Option Ref) (fromRoot : Bool) :
    (fromNodes a b fromRoot = .error .valueError ∧
      (a = none ∧ b = none ∨ ∃ x y, a = some x ∧ b = some y ∧ x.root ≠ y.root)) ∨
    (∃ c st en, fromNodes a b fromRoot = .ok (c, st, en) ∧
      (∀ x, a = some x → x.root = c.root ∧ ∃ s, st = some s ∧ x.path = c.path ++ s) ∧
      (∀ y, b = some y → y.root = c.root ∧ ∃ e, en = some e ∧ y.path = c.path ++ e) ∧
      (a = none → st = none) ∧ (b = none → en = none) ∧
      (fromRoot = true ∨ a = none ∨ b = none → c.path = []) ∧
      (a ≠ none ∨ b ≠ none) ∧
      ∀ x y, a = some x → b = some y → fromRoot = false → Deepest c x y) := by
  cases a with
  | none =>
    cases b with
    | none => exact .inl ⟨rfl, .inl ⟨rfl, rfl⟩⟩
    | some y =>
      refine .inr ⟨⟨y.root, []⟩, none, some y.path, ?_, ?_, ?_, ?_, ?_, ?_, ?_, ?_⟩
      · simp [fromNodes, C32_root, trail_eq]
      · simp
      · rintro y ⟨⟩; exact ⟨rfl, y.path, rfl, by simp⟩
      · simp
      · simp
      · simp
      · simp
      · simp
  | some x =>
    cases b with
    | none =>
      refine .inr ⟨⟨x.root, []⟩, some x.path, none, ?_, ?_, ?_, ?_, ?_, ?_, ?_, ?_⟩
      · simp [fromNodes, C32_root, trail_eq]
      · rintro x ⟨⟩; exact ⟨rfl, x.path, rfl, by simp⟩
      · simp
      · simp
      · simp
      · simp
      · simp
      · simp
    | some y =>
      cases fromRoot with
      | false =>
        have hw := C29_with_trail x y
        by_cases hr : x.root = y.root
        · obtain ⟨c, hc, hd⟩ := C29_common_ancestor x y hr
          rw [hc] at hw
          obtain ⟨ta, tb, h1, h2, h3⟩ := hw
          refine .inr ⟨c, some ta, some tb, ?_, ?_, ?_, ?_, ?_, ?_, ?_, ?_⟩
          · simp [fromNodes, h1]
          · rintro x' ⟨⟩; exact ⟨hd.1.symm, ta, rfl, h2⟩
          · rintro y' ⟨⟩; exact ⟨hd.2.1.symm, tb, rfl, h3⟩
          · simp
          · simp
          · simp
          · simp
          · rintro x' y' ⟨⟩ ⟨⟩ -; exact hd
        · rw [(C29_different_trees x y).mpr hr] at hw
          exact .inl ⟨by simp [fromNodes, hw], .inr ⟨x, y, rfl, rfl, hr⟩⟩
      | true =>
        by_cases hr : x.root = y.root
        · refine .inr ⟨⟨x.root, []⟩, some x.path, some y.path, ?_, ?_, ?_, ?_, ?_, ?_, ?_, ?_⟩
          · simp [fromNodes, C32_root, trail_eq, hr]
          · rintro x' ⟨⟩; exact ⟨rfl, x.path, rfl, by simp⟩
          · rintro y' ⟨⟩; exact ⟨hr.symm, y.path, rfl, by simp⟩
          · simp
          · simp
          · simp
          · simp
          · simp
        · refine .inl ⟨?_, .inr ⟨x, y, rfl, rfl, hr⟩⟩
          simp [fromNodes, C32_root, Ne.symm hr]

/-- C33: the nodes of the range made by `from_nodes(a, b)` are, in document order,
exactly the nodes of the whole tree from `a` up to and including `b`, when `b` is not
before `a`, and `a` is not itself the ancestor of the range (that is, when `b` is not `a`
or below it; or, with from_root, when `a` is not the root). -/
theorem C33_between_partial (t : Tree α) (a b : Ref) (hr : a.root = b.root) (u v : Tree α) (ha : t.get? a.path = some u)
    (hb : t.get? b.path = some v) (hab : NotBefore b.path a.path) (fromRoot : Bool)
    (hroot : if fromRoot then a.path ≠ [] else ¬ AboveOrSelf a.path b.path) :
    ∃ c st en x, fromNodes (some a) (some b) fromRoot = .ok (c, st, en) ∧ t.get? c.path = some x ∧
      (∃ out, Runs nodesResume always true (.init (make x st en)) [] out) ∧
      ∀ out, Runs nodesResume always true (.init (make x st en)) [] out →
        Lists false (fun m => NodeOf t m ∧ NotBefore m.1 a.path ∧ NotBefore b.path m.1)
          (out.map fun m => (c.path ++ m.1, m.2)) := by
  rcases C33_from_nodes (some a) (some b) fromRoot with ⟨-, ⟨h, -⟩ | ⟨x, y, h1, h2, h3⟩⟩ |
    ⟨c, st, en, h1, h2, h3, -, -, h4, -, h5⟩
  · cases h
  · cases h1; cases h2; exact absurd hr h3
  obtain ⟨-, s, rfl, hs⟩ := h2 a rfl
  obtain ⟨-, e, rfl, he⟩ := h3 b rfl
  obtain ⟨x, hx⟩ : ∃ x, t.get? c.path = some x := by
    rw [hs, get?_append] at ha
    cases hc : t.get? c.path with
    | none => rw [hc] at ha; simp at ha
    | some x => exact ⟨x, rfl⟩
  have hsne : s ≠ [] := by
    rintro rfl
    cases fromRoot with
    | true => rw [if_pos rfl] at hroot; exact hroot (by rw [hs, h4 (.inl rfl)]; simp)
    | false =>
      simp only [Bool.false_eq_true, if_false] at hroot
      exact hroot ⟨e, by rw [hs, he]; simp⟩
  have hgs : ∀ q, x.get? q = t.get? (c.path ++ q) := by
    intro q; rw [get?_append, hx]; rfl
  have hp : Proper x (some s) (some e) := by
    refine ⟨?_, ?_, ?_⟩
    · rintro s' ⟨⟩; exact ⟨u, by rw [hgs, ← hs]; exact ha⟩
    · rintro s' ⟨⟩; exact ⟨v, by rw [hgs, ← he]; exact hb⟩
    · rintro s' e' ⟨⟩ ⟨⟩
      rw [hs, he, notBefore_append_iff] at hab
      exact hab
  refine ⟨c, some s, some e, x, h1, hx, (C33_nodes x _ _ hp).1, fun out ho => ?_⟩
  obtain ⟨k1, k2⟩ := (C33_nodes x _ _ hp).2 out ho
  constructor
  · rw [List.pairwise_map]
    exact k1.imp fun {a b} h => (docBefore_append_iff c.path a.1 b.1).mpr h
  · intro m
    rw [List.mem_map]
    constructor
    · rintro ⟨n, hn, rfl⟩
      obtain ⟨j1, j2, j3⟩ := (k2 n).mp hn
      refine ⟨?_, ?_, ?_⟩
      · unfold NodeOf at j1 ⊢; rw [← hgs]; exact j1
      · rw [hs]; exact (notBefore_append_iff _ _ _).mpr (j3.1 s rfl)
      · rw [he]; exact (notBefore_append_iff _ _ _).mpr (j3.2 e rfl)
    · rintro ⟨j1, j2, j3⟩
      rw [hs] at j2
      rw [he] at j3
      obtain ⟨r, hm⟩ := between_prefix j2 j3
      rw [hm, notBefore_append_iff] at j2 j3
      refine ⟨(r, m.2), (k2 _).mpr ⟨?_, ?_, ?_, ?_⟩, Prod.ext hm.symm rfl⟩
      · unfold NodeOf at j1 ⊢; rw [hgs, ← hm]; exact j1
      · rintro (rfl : r = [])
        rcases j2 with h | ⟨i, r, h⟩ | ⟨c, i, j, r, q, h, h', -⟩
        · exact hsne h.symm
        · simp at h
        · simp at h'
      · rintro s' ⟨⟩; exact j2
      · rintro s' ⟨⟩; exact j3

example : fromNodes (some ⟨0, [0, 1]⟩) (some ⟨0, [0, 2, 3]⟩) true = .ok (⟨0, []⟩, some [0, 1], some [0, 2, 3]) := by
  simp [fromNodes, C32_root, trail_eq]

/-- C33, what the claim is not true for: when the start node is the ancestor of the
range, it is not yielded by `nodes()`, although "the range includes both the start
node and the end node". -/
theorem C33_start_above_not_yielded :
    ∃ (t : Tree Char) (a b : Ref), NotBefore b.path a.path ∧ ∃ c st en, fromNodes (some a) (some b) true = .ok (c, st, en) ∧
      c.path = [] ∧ ∀ out, Runs nodesResume always true (.init (make t st en)) [] out → ∀ m ∈ out, m.1 ≠ a.path := by
  refine ⟨exTree, ⟨0, []⟩, ⟨0, [0]⟩, .inr (.inl ⟨0, [], rfl⟩), ⟨0, []⟩, some [], some [0], ?_, rfl, ?_⟩
  · simp [fromNodes, C32_root, trail_eq]
  · intro out ho m hm
    have hp : Proper exTree (some []) (some [0]) := by
      refine ⟨?_, ?_, ?_⟩
      · rintro s ⟨⟩; exact ⟨_, rfl⟩
      · rintro s ⟨⟩; exact ⟨_, rfl⟩
      · rintro s e ⟨⟩ ⟨⟩; exact .inr (.inl ⟨0, [], rfl⟩)
    exact ((((C33_nodes _ _ _ hp).2 out ho).2 m).mp hm).2.1

/-- C33, what the claim is not true for: a range whose end is before its start is
documented to be empty, and it is false as a truth value, but `nodes()` yields the start
node and the nodes below it. -/
theorem C33_empty_range_yields :
    ∃ (t : Tree Char) (s e : Path), DocBefore e s ∧ (make t (some s) (some e)).bool = false ∧
      (∀ p, ¬ Within (some s) (some e) p) ∧
      ∃ out, Runs nodesResume always true (.init (make t (some s) (some e))) [] out ∧
        out.map (·.1) = [[1], [1, 0], [1, 1], [1, 1, 0]] := by
  refine ⟨exTree, [1], [0], .inr ⟨[], 0, 1, [], [], rfl, rfl, by decide⟩, by decide, ?_, ?_⟩
  · rintro p ⟨h1, h2⟩
    have := notBefore_trans (h2 _ rfl) (h1 _ rfl)
    rw [notBefore_iff] at this
    exact this (.inr ⟨[], 0, 1, [], [], rfl, rfl, by decide⟩)
  · exact ⟨_, .step rfl (.step rfl (.step rfl (.step rfl (.done rfl)))), rfl⟩

end Quickly.NodeRange
