import Verif.RangeWalk.Lemmas3
import Verif.Node.Props

/-!
# Property C102: walking with a range
-/

namespace Quickly.RangeWalk

open Quickly.Node Quickly.Node.Spec Quickly.NodeRange Quickly.NodeRange.Spec Quickly.Query Quickly.Query.Spec
open Quickly.RangeWalk.Spec

variable {α κ : Type} {t : Tree α} {st en : Option Path}

/-- C102: whatever was done with the range before, when it is at the node at `p`, `forward(upto)` and `backward(upto)` end,
and yield in order exactly the nodes that touch the range, come after (before) the node and are not below it, and are below
`upto` if that is given; except those below a node after which False was sent. -/
theorem C102_walk (hp : Proper t st en) {ls : List (Level α)} (hr : Reached t st en ls) {p : Path} (hat : At ls p)
    (rev : Bool) (upto : Option Path) (hu : ∀ u, upto = some u → Above u p) (dec : List (Item α) → Bool) :
    (∃ out, Runs (walkResume rev upto) dec true (none, ls) [] out) ∧
    ∀ out, Runs (walkResume rev upto) dec true (none, ls) [] out →
      Lists rev (fun m => (NodeOf t m ∧ Beyond rev p m.1 ∧ Touches t st en m.1 ∧ ∀ u, upto = some u → Above u m.1) ∧
        ∀ a ∈ out, Above a.1 m.1 → dec (upTo a.1 out) = true) out := by
  have hc := reached_chain hp hr
  obtain ⟨l, ms, i, rfl, hi, rfl⟩ := at_head hc hat
  have h := walk_lists hp rev hc upto (by
    intro u h
    obtain ⟨j, r, h⟩ := hu u h
    rcases List.eq_nil_or_concat (j :: r) with hn | ⟨r', z, hn⟩
    · cases hn
    · rw [hn] at h
      have h' : l.node.1 ++ [i] = (u ++ r') ++ [z] := by simpa using h
      exact ⟨r', (List.append_inj' h' rfl).1⟩)
  refine ⟨h.1 dec, fun out ho => ?_⟩
  have := h.2 dec out ho
  simpa only [Rest, hi] using this

/-- C102: when the range has entered the node at `p` (a new range has entered its ancestor, `[]`), the walks begin with
its children. -/
theorem C102_walk_entered (hp : Proper t st en) {ls : List (Level α)} (hr : Reached t st en ls) {p : Path} (hin : In ls p)
    (rev : Bool) (upto : Option Path) (hu : ∀ u, upto = some u → AboveOrSelf u p) (dec : List (Item α) → Bool) :
    (∃ out, Runs (walkResume rev upto) dec true (none, ls) [] out) ∧
    ∀ out, Runs (walkResume rev upto) dec true (none, ls) [] out →
      Lists rev (fun m => (NodeOf t m ∧ (Above p m.1 ∨ Beyond rev p m.1) ∧ Touches t st en m.1 ∧
          ∀ u, upto = some u → Above u m.1) ∧
        ∀ a ∈ out, Above a.1 m.1 → dec (upTo a.1 out) = true) out := by
  have hc := reached_chain hp hr
  obtain ⟨l, ms, rfl, hi, rfl⟩ := in_head hin
  have h := walk_lists hp rev hc upto hu
  refine ⟨h.1 dec, fun out ho => ?_⟩
  have := h.2 dec out ho
  simpa only [Rest, hi] using this

/-- C102: from any place, `descendants(reverse)` yields in order exactly the nodes below the current node that touch the
range, except those below a node after which False was sent; at the end the current node is the same as before. -/
theorem C102_descendants (hp : Proper t st en) {ls : List (Level α)} (hr : Reached t st en ls) (rev : Bool)
    (dec : List (Item α) → Bool) :
    ∃ n, current ls = some n ∧ (∃ out, Runs (NodeRange.descResume rev) dec true ⟨none, none, ls⟩ [] out) ∧
      (∀ out, Runs (NodeRange.descResume rev) dec true ⟨none, none, ls⟩ [] out →
        Lists rev (fun m => (NodeOf t m ∧ Above n.1 m.1 ∧ Touches t st en m.1) ∧
          ∀ a ∈ out, Above a.1 m.1 → dec (upTo a.1 out) = true) out) ∧
      ∀ ls', EndsAt (NodeRange.descGo rev) dec true ⟨none, none, ls⟩ [] ls' → current ls' = some n := by
  have hc := reached_chain hp hr
  obtain ⟨n, h1, h2, h3⟩ := desc_lists hp rev hc
  exact ⟨n, h1, h2 dec, h3 dec, fun ls' h => by rw [← h1]; exact desc_same hp.2.1 hc h⟩

/-- C102: from any place, `children(reverse)` yields in order exactly the children of the current node that touch the
range; at the end the current node is the same as before. -/
theorem C102_children (hp : Proper t st en) {ls : List (Level α)} (hr : Reached t st en ls) (rev : Bool)
    (dec : List (Item α) → Bool) :
    ∃ n out, current ls = some n ∧ Runs (kidsResume rev) dec true (false, ls) [] out ∧
      Lists rev (fun m => NodeOf t m ∧ (∃ k, m.1 = n.1 ++ [k]) ∧ Touches t st en m.1) out ∧
      ∀ ls', EndsAt (kidsGo rev) dec true (false, ls) [] ls' → current ls' = some n := by
  have hc := reached_chain hp hr
  obtain ⟨n, out, h1, h2, h3, h4⟩ := kids_lists hp rev hc dec
  refine ⟨n, out, h1, h2, ⟨h3.imp fun h => (order_iff rev _ _).mpr (.inr h), h4⟩, ?_⟩
  intro ls' h
  rw [← h1]
  exact kids_same hp.2.1 hc h

theorem touches_above (hp : Proper t st en) {p q : Path} (hq : AboveOrSelf q p) {m n : Tree α} (hm : t.get? q = some m)
    (hn : t.get? p = some n) (ht : Touches t st en p) : Touches t st en q := by
  obtain ⟨r, rfl⟩ := hq
  exact (touches_iff hp hm).mpr (steps_append.mp ((touches_iff hp hn).mp ht)).1

/-- The source of an operator. -/
theorem source {ls : List (Level α)} (hp : Proper t st en) (hr : Reached t st en ls) (op : Op)
    (P : Path → Prop) (hP : ∃ p, (At ls p ∧ P = Place op p) ∨ (In ls p ∧ P = PlaceIn op p)) :
    ∃ out : List (Item α), out.Pairwise (fun a b => InOrder op a.1 b.1) ∧
      (∀ m, m ∈ out ↔ NodeOf t m ∧ Touches t st en m.1 ∧ P m.1) ∧
      ∀ pred : α → Bool, match op with
        | .lshift => Selects upResume pred ls (out.filter fun n => pred n.2.val)
        | .gt => Selects (walkResume false none) pred (none, ls) (out.filter fun n => pred n.2.val)
        | .lt => Selects (walkResume true none) pred (none, ls) (out.filter fun n => pred n.2.val)
        | .div | .xor => Selects (kidsResume false) pred (false, ls) (out.filter fun n => pred n.2.val)
        | .floordiv => Selects (NodeRange.descResume false) pred ⟨none, none, ls⟩ (out.filter fun n => pred n.2.val) := by
  obtain ⟨p, hP⟩ := hP
  have hcur : ∃ n, current ls = some n ∧ n.1 = p := by
    rcases hP with ⟨h, -⟩ | ⟨h, -⟩ <;> exact h.1
  have hc := reached_chain hp hr
  have walk : ∀ rev, ∃ out, Runs (walkResume rev none) always true (none, ls) [] out ∧
      out.Pairwise (fun a b => Order rev a.1 b.1) ∧
      ∀ m, m ∈ out ↔ NodeOf t m ∧ Touches t st en m.1 ∧
        ((At ls p ∧ Beyond rev p m.1) ∨ (In ls p ∧ (Above p m.1 ∨ Beyond rev p m.1))) := by
    intro rev
    have not_both : At ls p → In ls p → False := by
      rintro ⟨-, l, ms, rfl, h⟩ ⟨-, l', ms', h2, h3⟩
      cases h2
      exact h h3
    rcases hP with ⟨h, -⟩ | ⟨h, -⟩
    · obtain ⟨⟨out, h1⟩, h2⟩ := C102_walk hp hr h rev none (by simp) always
      refine ⟨out, h1, (h2 out h1).1, fun m => ((h2 out h1).2 m).trans ?_⟩
      simp only [always, implies_true, and_true, reduceCtorEq, false_implies]
      constructor
      · rintro ⟨a, b, c⟩; exact ⟨a, c, .inl ⟨h, b⟩⟩
      · rintro ⟨a, c, ⟨-, b⟩ | ⟨b, -⟩⟩
        · exact ⟨a, b, c⟩
        · exact (not_both h b).elim
    · obtain ⟨⟨out, h1⟩, h2⟩ := C102_walk_entered hp hr h rev none (by simp) always
      refine ⟨out, h1, (h2 out h1).1, fun m => ((h2 out h1).2 m).trans ?_⟩
      simp only [always, implies_true, and_true, reduceCtorEq, false_implies]
      constructor
      · rintro ⟨a, b, c⟩; exact ⟨a, c, .inr ⟨h, b⟩⟩
      · rintro ⟨a, c, ⟨b, -⟩ | ⟨-, b⟩⟩
        · exact (not_both b h).elim
        · exact ⟨a, b, c⟩
  have below : ∀ p q : Path, Left p q → ¬ Above p q := by
    rintro p q h ⟨i, r, rfl⟩
    have := Left.append h (i :: r) []
    simp only [List.append_nil] at this
    exact left_irrefl _ this
  have above : ∀ p q : Path, Left q p → ¬ Above q p := by
    rintro p q h
    exact below q p h
  have kids : ∃ out, Runs (kidsResume false) always true (false, ls) [] out ∧
      out.Pairwise (fun a b => DocBefore a.1 b.1) ∧
      ∀ m, m ∈ out ↔ NodeOf t m ∧ Touches t st en m.1 ∧ ∃ k, m.1 = p ++ [k] := by
    obtain ⟨n, out, h1, h2, h3, -⟩ := C102_children hp hr false always
    obtain ⟨n', k1, k2⟩ := hcur
    rw [h1] at k1
    cases k1
    subst k2
    exact ⟨out, h2, h3.1, fun m => (h3.2 m).trans ⟨fun ⟨a, b, c⟩ => ⟨a, c, b⟩, fun ⟨a, c, b⟩ => ⟨a, b, c⟩⟩⟩
  cases op with
  | div =>
    obtain ⟨out, h1, h2, h3⟩ := kids
    refine ⟨out, h2, fun m => (h3 m).trans ?_, fun pred => selects_of_runs pred h1 rfl⟩
    rcases hP with ⟨-, rfl⟩ | ⟨-, rfl⟩ <;> exact Iff.rfl
  | xor =>
    obtain ⟨out, h1, h2, h3⟩ := kids
    refine ⟨out, h2, fun m => (h3 m).trans ?_, fun pred => selects_of_runs pred h1 rfl⟩
    rcases hP with ⟨-, rfl⟩ | ⟨-, rfl⟩ <;> exact Iff.rfl
  | floordiv =>
    obtain ⟨n, k1, ⟨out, h1⟩, h2, -⟩ := C102_descendants hp hr false always
    obtain ⟨n', k3, k4⟩ := hcur
    rw [k1] at k3
    cases k3
    subst k4
    refine ⟨out, (h2 out h1).1, fun m => ((h2 out h1).2 m).trans ?_, fun pred => selects_of_runs pred h1 rfl⟩
    simp only [always, implies_true, and_true]
    rcases hP with ⟨-, rfl⟩ | ⟨-, rfl⟩ <;>
      exact ⟨fun ⟨a, b, c⟩ => ⟨a, c, b⟩, fun ⟨a, c, b⟩ => ⟨a, b, c⟩⟩
  | gt =>
    obtain ⟨out, h1, h2, h3⟩ := walk false
    refine ⟨out, h2, fun m => (h3 m).trans ?_, fun pred => selects_of_runs pred h1 rfl⟩
    have hb : ∀ q, Beyond false p q ↔ Left p q := fun q => Iff.rfl
    rcases hP with ⟨hat, rfl⟩ | ⟨hin, rfl⟩
    · have : ¬ In ls p := by
        rintro ⟨-, l, ms, rfl, h⟩
        obtain ⟨-, l', ms', h2, h3⟩ := hat
        cases h2
        exact h3 h
      simp only [hat, this, true_and, false_and, or_false, Place, DocBefore, hb]
      constructor
      · rintro ⟨a, b, c⟩; exact ⟨a, b, .inr c, below _ _ c⟩
      · rintro ⟨a, b, c | c, d⟩
        · exact absurd c d
        · exact ⟨a, b, c⟩
    · have : ¬ At ls p := by
        rintro ⟨-, l', ms', e1, e2⟩
        obtain ⟨-, l, ms, rfl, h⟩ := hin
        cases e1
        exact e2 h
      simp only [hin, this, true_and, false_and, false_or, PlaceIn, hb]
  | lt =>
    obtain ⟨out, h1, h2, h3⟩ := walk true
    refine ⟨out, h2, fun m => (h3 m).trans ?_, fun pred => selects_of_runs pred h1 rfl⟩
    have hb : ∀ q, Beyond true p q ↔ Left q p := fun q => Iff.rfl
    rcases hP with ⟨hat, rfl⟩ | ⟨hin, rfl⟩
    · have : ¬ In ls p := by
        rintro ⟨-, l, ms, rfl, h⟩
        obtain ⟨-, l', ms', h2, h3⟩ := hat
        cases h2
        exact h3 h
      simp only [hat, this, true_and, false_and, or_false, Place, DocBefore, hb]
      constructor
      · rintro ⟨a, b, c⟩; exact ⟨a, b, .inr c, above _ _ c⟩
      · rintro ⟨a, b, c | c, d⟩
        · exact absurd c d
        · exact ⟨a, b, c⟩
    · have : ¬ At ls p := by
        rintro ⟨-, l', ms', e1, e2⟩
        obtain ⟨-, l, ms, rfl, h⟩ := hin
        cases e1
        exact e2 h
      simp only [hin, this, true_and, false_and, false_or, PlaceIn, hb]
  | lshift =>
    cases ls with
    | nil => exact hc.elim
    | cons l ms =>
      obtain ⟨out, h1, h2, h3⟩ := up_lists (dec := always) hc
      refine ⟨out, h2, fun m => (h3 m).trans ?_, fun pred => selects_of_runs pred (h1 [] true) rfl⟩
      obtain ⟨hn, hs⟩ := current_touches hp hc rfl
      have htl : Touches t st en l.node.1 := (touches_iff hp hn).mpr hs
      rcases hP with ⟨hat, rfl⟩ | ⟨hin, rfl⟩
      · obtain ⟨l', ms', i, e, hi, rfl⟩ := at_head hc hat
        cases e
        simp only [hi, ne_eq, reduceCtorEq, not_false_eq_true, true_or, true_and, Place]
        constructor
        · rintro ⟨a, r, b⟩
          refine ⟨a, touches_above hp ⟨r, b⟩ a hn htl, ?_⟩
          rw [b]
          cases r with
          | nil => exact ⟨i, [], by simp⟩
          | cons x r => exact ⟨x, r ++ [i], by simp⟩
        · rintro ⟨a, -, j, r, b⟩
          refine ⟨a, ?_⟩
          rcases List.eq_nil_or_concat (j :: r) with hx | ⟨r', z, hx⟩
          · cases hx
          · rw [hx] at b
            have b' : l.node.1 ++ [i] = (m.1 ++ r') ++ [z] := by simpa using b
            exact ⟨r', (List.append_inj' b' rfl).1⟩
      · obtain ⟨l', ms', e, hi, rfl⟩ := in_head hin
        cases e
        simp only [hi, ne_eq, not_true, false_or, PlaceIn]
        constructor
        · rintro ⟨a, b, c⟩
          exact ⟨a, touches_above hp c a hn htl, b, c⟩
        · rintro ⟨a, -, b, c⟩
          exact ⟨a, b, c⟩

theorem operators [DecidableEq κ] (env : Env α κ) {ls : List (Level α)} (hp : Proper t st en) (hr : Reached t st en ls) (op : Op)
    (P : Path → Prop) (hP : ∃ p, (At ls p ∧ P = Place op p) ∨ (In ls p ∧ P = PlaceIn op p)) (arg : Arg α κ) (harg : arg ≠ .other) :
    ∃ out, Yields env ls op arg out ∧ (∀ out', Yields env ls op arg out' → out' = out) ∧
      out.Pairwise (fun a b => InOrder op a.1 b.1) ∧
      ∀ m, m ∈ out ↔ NodeOf t m ∧ Touches t st en m.1 ∧ P m.1 ∧ Selected env op arg m.2.val := by
  obtain ⟨src, h1, h2, h3⟩ := source hp hr op P hP
  obtain ⟨pred, hpr⟩ : ∃ pred, predicate env arg = some pred := by
    cases arg with
    | node o => exact ⟨_, rfl⟩
    | classes cs => exact ⟨_, rfl⟩
    | other => exact absurd rfl harg
  have hm := predicate_iff env arg pred hpr
  let sel : α → Bool := if op = .xor then (fun v => !pred v) else pred
  have hsel : ∀ v, sel v = true ↔ Selected env op arg v := by
    intro v
    by_cases hx : op = .xor
    · have hs : sel = fun v => !pred v := if_pos hx
      simp only [Selected, if_pos hx, ← hm v, hs]
      cases pred v <;> simp
    · have hs : sel = pred := if_neg hx
      simp only [Selected, if_neg hx, ← hm v, hs]
  have hy : Yields env ls op arg (src.filter fun n => sel n.2.val) := by
    have := h3 sel
    unfold Yields
    rw [hpr]
    cases op <;> exact this
  refine ⟨_, hy, ?_, h1.filter _, ?_⟩
  · intro out' h'
    unfold Yields at h' hy
    rw [hpr] at h' hy
    cases op <;> exact selects_unique h' hy
  · intro m
    rw [List.mem_filter, h2 m, hsel, and_assoc, and_assoc]

/-- C102: whatever was done with the range before, when it is at the node at `p`, the query operators yield exactly the
nodes that touch the range, are where the operator looks (as for the node itself, C61) and match the argument (for `^`: do
not match), each once and in the order of the operator; and they end. -/
theorem C102_operators [DecidableEq κ] (env : Env α κ) {ls : List (Level α)} (hp : Proper t st en) (hr : Reached t st en ls)
    {p : Path} (hat : At ls p) (op : Op) (arg : Arg α κ) (harg : arg ≠ .other) :
    ∃ out, Yields env ls op arg out ∧ (∀ out', Yields env ls op arg out' → out' = out) ∧
      out.Pairwise (fun a b => InOrder op a.1 b.1) ∧
      ∀ m, m ∈ out ↔ NodeOf t m ∧ Touches t st en m.1 ∧ Place op p m.1 ∧ Selected env op arg m.2.val :=
  operators env hp hr op _ ⟨p, .inl ⟨hat, rfl⟩⟩ arg harg

/-- C102: the same when the node at `p` has been entered, or the range is at its ancestor (`[]`): the walks then begin with
the children, and `<<` with the node itself, except for the ancestor of the range, which has none. -/
theorem C102_operators_entered [DecidableEq κ] (env : Env α κ) {ls : List (Level α)} (hp : Proper t st en)
    (hr : Reached t st en ls) {p : Path} (hin : In ls p) (op : Op) (arg : Arg α κ) (harg : arg ≠ .other) :
    ∃ out, Yields env ls op arg out ∧ (∀ out', Yields env ls op arg out' → out' = out) ∧
      out.Pairwise (fun a b => InOrder op a.1 b.1) ∧
      ∀ m, m ∈ out ↔ NodeOf t m ∧ Touches t st en m.1 ∧ PlaceIn op p m.1 ∧ Selected env op arg m.2.val :=
  operators env hp hr op _ ⟨p, .inr ⟨hin, rfl⟩⟩ arg harg

/-- C102: a range is always at some node, which it has entered or not. -/
theorem C102_somewhere (hp : Proper t st en) {ls : List (Level α)} (hr : Reached t st en ls) :
    ∃ p, (At ls p ∨ In ls p) ∧ Touches t st en p ∧ ∃ n, t.get? p = some n := by
  have hc := reached_chain hp hr
  obtain ⟨c, cs, h1, h2, h3, h4, -⟩ := enter_head hc
  obtain ⟨hn, hs⟩ := current_touches hp h4 rfl
  refine ⟨c.node.1, ?_, (touches_iff hp hn).mpr hs, _, hn⟩
  cases ls with
  | nil => exact hc.elim
  | cons l ls =>
    by_cases hi : l.index = none
    · exact .inr ⟨⟨_, h3, rfl⟩, l, ls, rfl, hi⟩
    · exact .inl ⟨⟨_, h3, rfl⟩, l, ls, rfl, hi⟩

/-- C102, what users may not expect: after `enter()` the current node is still the same, but `ancestors()` yields it as its own
first ancestor. -/
theorem C102_own_ancestor :
    ∃ (t : Tree Char) (r : NodeRange.Range Char) (n : Item Char), (make t none none).gotoTrail [0] = some r ∧ r.node = some n ∧
      current (enter r.stack) = some n ∧ n.1 = [0] ∧
      (∃ out, Runs upResume always true r.stack [] out ∧ out.map (·.1) = [[]]) ∧
      ∃ out, Runs upResume always true (enter r.stack) [] out ∧ out.map (·.1) = [[0], []] := by
  refine ⟨.node 'a' [.node 'b' [.node 'c' []]], _, _, rfl, rfl, rfl, rfl, ⟨_, .step rfl (.done rfl), rfl⟩,
    ⟨_, .step rfl (.step rfl (.done rfl)), rfl⟩⟩

/-- A range of three nodes in a tree; the cursor goes to the last child of the first, and from there forward and back. -/
def sample : Tree (ℕ × Char) :=
  .node (1, 'r') [.node (2, 'a') [.node (4, 'b') [], .node (3, 'c') []], .node (3, 'd') [.node (6, 'e') [], .node (5, 'f') []]]

/-- The range from `c` to `e`. -/
abbrev sampleStart : Option Path := some [0, 1]

/-- The end of the range. -/
abbrev sampleEnd : Option Path := some [1, 0]

theorem sample_proper : Proper sample sampleStart sampleEnd := by
  refine ⟨by rintro s ⟨⟩; exact ⟨_, rfl⟩, by rintro e ⟨⟩; exact ⟨_, rfl⟩, ?_⟩
  rintro s e ⟨⟩ ⟨⟩
  exact .inr (.inr ⟨[], 0, 1, [1], [0], rfl, rfl, by decide⟩)

/-- The stack after `goto` of the first node of the range. -/
def sampleStack : List (Level (ℕ × Char)) :=
  match (make sample sampleStart sampleEnd).gotoTrail [0, 1] with
  | some r => r.stack
  | none => []

theorem sample_reached : Reached sample sampleStart sampleEnd sampleStack := by
  refine Reached.goto (p := [0, 1]) (n := .node (3, 'c') []) rfl ?_ rfl
  exact ⟨[], _, rfl, by rintro s ⟨⟩; exact .inl rfl, by
    rintro e ⟨⟩
    exact .inr (.inr ⟨[], 0, 1, [1], [0], rfl, rfl, by decide⟩)⟩

example : At sampleStack [0, 1] := ⟨⟨_, rfl, rfl⟩, _, _, rfl, by decide⟩

/-- Forward from there: `d` and `e`, but not `f`, which is not in the range; up to the parent: nothing. -/
example : (runFor (walkResume false none) always 20 true (none, sampleStack) []).map (·.2.val.2) = ['d', 'e'] ∧
    (runFor (walkResume false (some [0])) always 20 true (none, sampleStack) []).map (·.2.val.2) = [] ∧
    (runFor upResume always 20 true sampleStack []).map (·.2.val.2) = ['a', 'r'] ∧
    (runFor (kidsResume false) always 20 true (false, (make sample sampleStart sampleEnd).stack) []).map (·.2.val.2) =
      ['a', 'd'] := by decide +kernel

example : ∃ out, Yields exEnv sampleStack .gt (.classes [3]) out ∧ out.map (·.1) = [[1], [1, 0]] :=
  ⟨_, .yield rfl rfl (.yield rfl rfl (.done rfl)), rfl⟩

end Quickly.RangeWalk
