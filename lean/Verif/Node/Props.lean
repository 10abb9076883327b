import Verif.Node.Lemmas2

/-!
# Properties C26-C29, C31, C32: going through a tree
-/

namespace Quickly.Node

open Spec

variable {α : Type}

/-! ## Facts shared by the generators -/

theorem gen_listsK {σ : Type} {rev : Bool} {K : Item α → List (Item α)} (hK : Goes rev K) {resume : Resume σ α}
    {view} (h : Sim K resume view) {s : σ}
    {W : List (Item α)} (hs : view s = (none, W)) (hW : W.Pairwise (fun a b => Branch rev a.1 b.1))
    {P : Item α → Prop} (hP : ∀ m, (∃ w ∈ W, Desc K w m) ↔ P m) :
    (∀ dec, ∃ out, Runs resume dec true s [] out) ∧
    (∀ dec out, Runs resume dec true s [] out →
      Lists rev (fun m => P m ∧ ∀ a ∈ out, Above a.1 m.1 → dec (upTo a.1 out) = true) out) := by
  constructor
  · intro dec
    obtain ⟨out, ho⟩ := wruns_exists hK dec _ none W true [] (Nat.le_refl _)
    exact ⟨out, runs_of_sim h (by rw [hs]; exact ho)⟩
  · intro dec out ho
    have h1 := runs_sim h ho
    rw [hs] at h1
    obtain ⟨a, b, c⟩ := wruns_mem hK h1 (by simpa [kidsIf] using hW)
    simp only [kidsIf, List.nil_append] at a b c
    refine ⟨a, fun m => ⟨fun hm => ?_, fun hm => ?_⟩⟩
    · exact ⟨(hP m).mp (b m hm), (c m (b m hm)).mp hm⟩
    · exact (c m ((hP m).mpr hm.1)).mpr hm.2

theorem gen_lists {σ : Type} {rev : Bool} {resume : Resume σ α} {view} (h : Sim (iterate rev) resume view) {s : σ}
    {W : List (Item α)} (hs : view s = (none, W)) (hW : W.Pairwise (fun a b => Branch rev a.1 b.1))
    {P : Item α → Prop} (hP : ∀ m, (∃ w ∈ W, Under w m) ↔ P m) :
    (∀ dec, ∃ out, Runs resume dec true s [] out) ∧
    (∀ dec out, Runs resume dec true s [] out →
      Lists rev (fun m => P m ∧ ∀ a ∈ out, Above a.1 m.1 → dec (upTo a.1 out) = true) out) :=
  gen_listsK (goes_iterate rev) h hs hW (by simpa only [desc_iterate] using hP)

theorem gen_filter {σ : Type} {rev : Bool} {resume : Resume σ α} {view} (h : Sim (iterate rev) resume view) {s : σ}
    {W : List (Item α)} (hs : view s = (none, W)) (hW : W.Pairwise (fun a b => Branch rev a.1 b.1))
    {P : Item α → Prop} (hP : ∀ m, (∃ w ∈ W, Under w m) ↔ P m) (pred : Item α → Bool) :
    (∃ out, Filters resume pred true s out) ∧
    (∀ out, Filters resume pred true s out →
      Lists rev (fun m => P m ∧ pred m = true ∧ ∀ a, P a → Above a.1 m.1 → pred a = false) out) := by
  constructor
  · obtain ⟨out, ho⟩ := wfilters_exists (goes_iterate rev) pred _ none W true (Nat.le_refl _)
    exact ⟨out, filters_of_sim h (by rw [hs]; exact ho)⟩
  · intro out ho
    obtain ⟨all, hr, rfl⟩ := filters_runs ho []
    obtain ⟨hpw, hmem⟩ := (gen_lists h hs hW hP).2 _ _ hr
    have hne : all.Pairwise (fun a b => a.1 ≠ b.1) :=
      hpw.imp (S := fun a b => a.1 ≠ b.1) (by
        intro a b hab he
        rw [he] at hab
        exact Order.irrefl _ hab)
    have hdec : ∀ a ∈ all, filterDec pred (upTo a.1 all) = !pred a := by
      intro a ha
      have := upTo_getLast ha hne []
      simp only [List.nil_append] at this
      simp [filterDec, this]
    -- a node is visited iff no ancestor matches
    have hvis : ∀ k, ∀ m : Item α, m.1.length = k → P m →
        (m ∈ all ↔ ∀ a, P a → Above a.1 m.1 → pred a = false) := by
      intro k
      induction k using Nat.strongRecOn with
      | _ k ih =>
        intro m hk hPm
        rw [hmem m]
        constructor
        · rintro ⟨-, hall⟩ a hPa hab
          -- the ancestors of a are ancestors of m; look at the topmost match
          by_contra hpa
          have key : ∀ j, ∀ b : Item α, b.1.length = j → P b → Above b.1 m.1 → pred b = true → False := by
            intro j
            induction j using Nat.strongRecOn with
            | _ j ihj =>
              intro b hbj hPb hbm hpb
              have hbk : j < k := by
                obtain ⟨i, r, hr⟩ := hbm
                rw [← hk, ← hbj, hr]
                simp
              have hb : b ∈ all := by
                rw [ih j hbk b hbj hPb]
                intro c hPc hcb
                by_contra hpc
                have hcj : c.1.length < j := by
                  obtain ⟨i, r, hr⟩ := hcb
                  rw [← hbj, hr]
                  simp
                exact ihj _ hcj c rfl hPc (Above.trans hcb hbm) (by simpa using hpc)
              have := hall b hb hbm
              rw [hdec b hb, hpb] at this
              cases this
          exact key _ a rfl hPa hab (by simpa using hpa)
        · intro hall
          refine ⟨hPm, fun a ha hab => ?_⟩
          rw [hdec a ha, hall a ((hmem a).mp ha).1 hab]
          rfl
    refine ⟨hpw.filter _, fun m => ?_⟩
    rw [List.mem_filter]
    constructor
    · rintro ⟨h1, h2⟩
      have hPm := ((hmem m).mp h1).1
      exact ⟨hPm, h2, (hvis _ m rfl hPm).mp h1⟩
    · rintro ⟨h1, h2, h3⟩
      exact ⟨(hvis _ m rfl h1).mpr h3, h2⟩

theorem desc_under {rev : Bool} {t s : Tree α} {p : Path} (hs : t.get? p = some s) (m : Item α) :
    (∃ w ∈ iterate rev (p, s), Under w m) ↔ NodeOf t m ∧ Above p m.1 := by
  constructor
  · rintro ⟨w, hw, r, h1, h2⟩
    obtain ⟨k, h3, h4⟩ := mem_iterate.mp hw
    refine ⟨?_, k, r, by rw [h1, h3]; simp⟩
    unfold NodeOf
    rw [h1, h3, get?_append, get?_snoc, hs]
    simp only [Option.bind_some, h4, h2]
  · rintro ⟨h1, i, r, h2⟩
    have hu : Under (p, s) m := by
      refine ⟨i :: r, h2, ?_⟩
      unfold NodeOf at h1
      rw [h2, get?_append, hs] at h1
      exact h1
    rcases (under_iff (rev := rev)).mp hu with rfl | h
    · exact absurd (congrArg List.length h2) (by simp)
    · exact h

theorem dView_start (rev : Bool) (n : Item α) : dView (descStart rev n) = (none, iterate rev n) := by
  simp [dView, descStart]

/-! ## A tree for the examples

```
A(B(C(), D()), E(F(), G(H())))
```
the example of the documentation of `trail()` (L277-284). -/

/-- A leaf. -/
def leaf (c : Char) : Tree Char := .node c []

/-- The example. -/
def exTree : Tree Char :=
  .node 'A' [.node 'B' [leaf 'C', leaf 'D'], .node 'E' [leaf 'F', .node 'G' [leaf 'H']]]

/-- The node E. -/
def exE : Tree Char := .node 'E' [leaf 'F', .node 'G' [leaf 'H']]

/-- Run a generator a number of times, for examples. -/
def runFor {σ : Type} (resume : Resume σ α) (dec : List (Item α) → Bool) :
    ℕ → Bool → σ → List (Item α) → List (Item α)
  | 0, _, _, _ => []
  | k + 1, ok, s, hist => match resume s ok with
    | none => []
    | some (n, s') => n :: runFor resume dec k (dec (hist ++ [n])) s' (hist ++ [n])

/-! ## C26 -/

/-- C26: iterating over `n.descendants(reverse)` ends, and yields exactly the
descendants of `n`, each once, in document order, or in backward order when
reverse is set. -/
theorem C26_descendants (rev : Bool) (t s : Tree α) (p : Path) (hs : t.get? p = some s) :
    (∃ out, Runs (descResume rev) always true (descStart rev (p, s)) [] out) ∧
    ∀ out, Runs (descResume rev) always true (descStart rev (p, s)) [] out →
      Lists rev (fun m => NodeOf t m ∧ Above p m.1) out := by
  have h := gen_lists (desc_sim rev) (dView_start rev (p, s)) (iterate_pairwise rev (p, s)) (desc_under hs)
  refine ⟨h.1 always, fun out ho => ?_⟩
  have := h.2 always out ho
  refine ⟨this.1, fun m => (this.2 m).trans ⟨fun h => h.1, fun h => ⟨h, fun _ _ _ => rfl⟩⟩⟩

example : (runFor (descResume false) always 20 true (descStart false ([], exTree)) []).map (·.2.val) =
    ['B', 'C', 'D', 'E', 'F', 'G', 'H'] := by decide +kernel
example : (runFor (descResume true) always 20 true (descStart true ([], exTree)) []).map (·.2.val) =
    ['E', 'G', 'H', 'F', 'B', 'D', 'C'] := by decide +kernel

/-- C26: `trail()` gives the place of a node, and comparing the trails of two nodes
of a tree with `<` compares them in document order. -/
theorem C26_trail_order (a b : Ref) :
    a.trail = a.path ∧ (a.trail < b.trail ↔ DocBefore a.path b.path) := by
  rw [trail_eq, trail_eq]
  exact ⟨rfl, lt_iff_docBefore _ _⟩

/-- C26: so two different nodes of a tree always have different trails, and one comes
first. -/
theorem C26_trail_total (a b : Ref) (h : a.root = b.root) (hne : a ≠ b) :
    (a.trail < b.trail ∧ ¬ b.trail < a.trail) ∨ (b.trail < a.trail ∧ ¬ a.trail < b.trail) := by
  have hp : a.path ≠ b.path := fun hp => hne (by cases a; cases b; simp_all)
  rw [trail_eq, trail_eq]
  rcases place_cases a.path b.path with h | h | h | h | h
  · exact absurd h hp
  · refine .inl ⟨(lt_iff_docBefore _ _).mpr (.inl h), fun hl => ?_⟩
    rcases (lt_iff_docBefore _ _).mp hl with h' | h'
    · exact not_above_self _ (Above.trans h h')
    · exact (left_not_above h').2 h
  · refine .inr ⟨(lt_iff_docBefore _ _).mpr (.inl h), fun hl => ?_⟩
    rcases (lt_iff_docBefore _ _).mp hl with h' | h'
    · exact not_above_self _ (Above.trans h h')
    · exact (left_not_above h').2 h
  · refine .inl ⟨(lt_iff_docBefore _ _).mpr (.inr h), fun hl => ?_⟩
    rcases (lt_iff_docBefore _ _).mp hl with h' | h'
    · exact (left_not_above h).2 h'
    · exact left_asymm h h'
  · refine .inr ⟨(lt_iff_docBefore _ _).mpr (.inr h), fun hl => ?_⟩
    rcases (lt_iff_docBefore _ _).mp hl with h' | h'
    · exact (left_not_above h).2 h'
    · exact left_asymm h h'

/-- The nodes D and H of the documentation. -/
example : (⟨0, [0, 1]⟩ : Ref).trail < (⟨0, [1, 1, 0]⟩ : Ref).trail := by
  rw [trail_eq, trail_eq]; decide

/-! ## C27 -/

/-- C27: whatever values a caller sends, deciding after each node from all nodes
it got so far, `descendants` ends, and it yields, in order, exactly those
descendants that have no ancestor among the yielded nodes after which False was
sent. -/
theorem C27_send_false (rev : Bool) (t s : Tree α) (p : Path) (hs : t.get? p = some s)
    (dec : List (Item α) → Bool) :
    (∃ out, Runs (descResume rev) dec true (descStart rev (p, s)) [] out) ∧
    ∀ out, Runs (descResume rev) dec true (descStart rev (p, s)) [] out →
      Lists rev (fun m => (NodeOf t m ∧ Above p m.1) ∧
        ∀ a ∈ out, Above a.1 m.1 → dec (upTo a.1 out) = true) out := by
  have h := gen_lists (desc_sim rev) (dView_start rev (p, s)) (iterate_pairwise rev (p, s)) (desc_under hs)
  exact ⟨h.1 dec, h.2 dec⟩

/-- Sending False after the third node, G. -/
example : (runFor (descResume false) (fun hist => hist.length != 3) 20 true (descStart false ([1], exE)) []).map
    (·.2.val) = ['F', 'G', 'H'] ∧
    (runFor (descResume false) (fun hist => hist.length != 2) 20 true (descStart false ([1], exE)) []).map
    (·.2.val) = ['F', 'G'] := by decide +kernel

/-- C27: `filter_descendants` over `descendants()` (the function `filter`, L125-132)
ends and yields exactly the topmost descendants for which the predicate is true. -/
theorem C27_filter (rev : Bool) (t s : Tree α) (p : Path) (hs : t.get? p = some s) (pred : Item α → Bool) :
    (∃ out, Filters (descResume rev) pred true (descStart rev (p, s)) out) ∧
    ∀ out, Filters (descResume rev) pred true (descStart rev (p, s)) out →
      Lists rev (fun m => (NodeOf t m ∧ Above p m.1) ∧ pred m = true ∧
        ∀ a, (NodeOf t a ∧ Above p a.1) → Above a.1 m.1 → pred a = false) out :=
  gen_filter (desc_sim rev) (dView_start rev (p, s)) (iterate_pairwise rev (p, s)) (desc_under hs) pred

/-- Nodes with children: B and E, but not G below E. -/
example : ∃ out, Filters (descResume false) (fun n => !n.2.children.isEmpty) true (descStart false ([], exTree)) out ∧
    out.map (·.2.val) = ['B', 'E'] :=
  ⟨_, .yield rfl rfl (.yield rfl rfl (.done rfl)), rfl⟩

/-! ## C28 -/

/-- C28: for any node at `p` and any values sent, `forward(upto)` (rev false) and
`backward(upto)` (rev true), where `upto` is None or the node or an ancestor of it,
end and yield, in order, exactly the nodes in later, or earlier, branches that are
inside `upto`, except those below a node after which False was sent. -/
theorem C28_forward_send (rev : Bool) (t : Tree α) (upto : Option Path) (p : Path)
    (hu : ∀ u, upto = some u → AboveOrSelf u p) (dec : List (Item α) → Bool) :
    (∃ out, Runs (fwdResume rev t upto) dec true (fwdStart rev t upto p) [] out) ∧
    ∀ out, Runs (fwdResume rev t upto) dec true (fwdStart rev t upto p) [] out →
      Lists rev (fun m => (NodeOf t m ∧ (if rev then Left m.1 p else Left p m.1) ∧ ∀ u, upto = some u → Above u m.1) ∧
        ∀ a ∈ out, Above a.1 m.1 → dec (upTo a.1 out) = true) out := by
  have h := gen_lists (fwd_sim rev t upto) (fwdStart_view rev t upto p) (levels_pairwise rev t upto p hu)
    (under_levels rev t upto p hu)
  exact ⟨h.1 dec, h.2 dec⟩

/-- C28: a plain loop over `forward(upto)` yields, in document order, exactly the
nodes inside `upto` that come after the node and are not its descendants. -/
theorem C28_forward (t : Tree α) (upto : Option Path) (p : Path)
    (hu : ∀ u, upto = some u → AboveOrSelf u p) :
    (∃ out, Runs (fwdResume false t upto) always true (fwdStart false t upto p) [] out) ∧
    ∀ out, Runs (fwdResume false t upto) always true (fwdStart false t upto p) [] out →
      Lists false (fun m => NodeOf t m ∧ DocBefore p m.1 ∧ ¬ Above p m.1 ∧ ∀ u, upto = some u → Above u m.1) out := by
  have h := C28_forward_send false t upto p hu always
  refine ⟨h.1, fun out ho => ?_⟩
  have := h.2 out ho
  refine ⟨this.1, fun m => (this.2 m).trans ⟨fun h => ?_, fun h => ⟨⟨h.1, ?_, h.2.2.2⟩, fun _ _ _ => rfl⟩⟩⟩
  · exact ⟨h.1.1, .inr h.1.2.1, (left_not_above h.1.2.1).1, h.1.2.2⟩
  · exact h.2.1.resolve_left h.2.2.1

/-- C28: a plain loop over `backward(upto)` yields, in backward order, exactly the
nodes inside `upto` that come before the node and are not its ancestors. -/
theorem C28_backward (t : Tree α) (upto : Option Path) (p : Path)
    (hu : ∀ u, upto = some u → AboveOrSelf u p) :
    (∃ out, Runs (fwdResume true t upto) always true (fwdStart true t upto p) [] out) ∧
    ∀ out, Runs (fwdResume true t upto) always true (fwdStart true t upto p) [] out →
      Lists true (fun m => NodeOf t m ∧ DocBefore m.1 p ∧ ¬ Above m.1 p ∧ ∀ u, upto = some u → Above u m.1) out := by
  have h := C28_forward_send true t upto p hu always
  refine ⟨h.1, fun out ho => ?_⟩
  have := h.2 out ho
  refine ⟨this.1, fun m => (this.2 m).trans ⟨fun h => ?_, fun h => ⟨⟨h.1, ?_, h.2.2.2⟩, fun _ _ _ => rfl⟩⟩⟩
  · exact ⟨h.1.1, .inr h.1.2.1, (left_not_above h.1.2.1).1, h.1.2.2⟩
  · exact h.2.1.resolve_left h.2.2.1

/-- C28: with the node itself, its ancestors and its descendants, `forward()` and
`backward()` divide the nodes of the tree: every node is in exactly one of the five. -/
theorem C28_partition (t : Tree α) (p : Path) (fwd bwd : List (Item α))
    (hf : Runs (fwdResume false t none) always true (fwdStart false t none p) [] fwd)
    (hb : Runs (fwdResume true t none) always true (fwdStart true t none p) [] bwd)
    (m : Item α) (hm : NodeOf t m) :
    let c := [m.1 = p, Above m.1 p, Above p m.1, m ∈ fwd, m ∈ bwd]
    (∃ i, ∃ h : i < c.length, c[i]) ∧ ∀ i j, (hi : i < c.length) → (hj : j < c.length) → c[i] → c[j] → i = j := by
  have h1 : m ∈ fwd ↔ Left p m.1 := by
    rw [((C28_forward_send false t none p (by simp) always).2 fwd hf).2 m]
    simp [hm, always]
  have h2 : m ∈ bwd ↔ Left m.1 p := by
    rw [((C28_forward_send true t none p (by simp) always).2 bwd hb).2 m]
    simp [hm, always]
  simp only [h1, h2]
  have hself : m.1 = p → ¬ Above m.1 p ∧ ¬ Above p m.1 ∧ ¬ Left p m.1 ∧ ¬ Left m.1 p := by
    rintro rfl
    exact ⟨not_above_self _, not_above_self _, left_irrefl _, left_irrefl _⟩
  have hab : Above m.1 p → ¬ Above p m.1 := fun a b => not_above_self _ (Above.trans a b)
  have hl := @left_not_above p m.1
  have hr := @left_not_above m.1 p
  have ha := @left_asymm p m.1
  constructor
  · rcases place_cases m.1 p with h | h | h | h | h
    · exact ⟨0, by simp, h⟩
    · exact ⟨1, by simp, h⟩
    · exact ⟨2, by simp, h⟩
    · exact ⟨4, by simp, h⟩
    · exact ⟨3, by simp, h⟩
  · intro i j hi hj
    simp only [List.length_cons, List.length_nil] at hi hj
    match i, hi, j, hj with
    | 0, _, 0, _ => simp
    | 1, _, 1, _ => simp
    | 2, _, 2, _ => simp
    | 3, _, 3, _ => simp
    | 4, _, 4, _ => simp
    | 0, _, 1, _ => exact fun a b => absurd b (hself a).1
    | 0, _, 2, _ => exact fun a b => absurd b (hself a).2.1
    | 0, _, 3, _ => exact fun a b => absurd b (hself a).2.2.1
    | 0, _, 4, _ => exact fun a b => absurd b (hself a).2.2.2
    | 1, _, 0, _ => exact fun b a => absurd b (hself a).1
    | 2, _, 0, _ => exact fun b a => absurd b (hself a).2.1
    | 3, _, 0, _ => exact fun b a => absurd b (hself a).2.2.1
    | 4, _, 0, _ => exact fun b a => absurd b (hself a).2.2.2
    | 1, _, 2, _ => exact fun a b => absurd b (hab a)
    | 2, _, 1, _ => exact fun b a => absurd b (hab a)
    | 1, _, 3, _ => exact fun a b => absurd a (hl b).2
    | 3, _, 1, _ => exact fun b a => absurd a (hl b).2
    | 2, _, 3, _ => exact fun a b => absurd a (hl b).1
    | 3, _, 2, _ => exact fun b a => absurd a (hl b).1
    | 1, _, 4, _ => exact fun a b => absurd a (hr b).1
    | 4, _, 1, _ => exact fun b a => absurd a (hr b).1
    | 2, _, 4, _ => exact fun a b => absurd a (hr b).2
    | 4, _, 2, _ => exact fun b a => absurd a (hr b).2
    | 3, _, 4, _ => exact fun a b => absurd b (ha a)
    | 4, _, 3, _ => exact fun b a => absurd b (ha a)

/-- From D: forward E F G H, backward C; inside B forward nothing; from H: backward
F, then B D C. -/
example : (runFor (fwdResume false exTree none) always 20 true (fwdStart false exTree none [0, 1]) []).map (·.2.val)
      = ['E', 'F', 'G', 'H'] ∧
    (runFor (fwdResume true exTree none) always 20 true (fwdStart true exTree none [0, 1]) []).map (·.2.val)
      = ['C'] ∧
    (runFor (fwdResume false exTree (some [0])) always 20 true (fwdStart false exTree (some [0]) [0, 1]) []).map (·.2.val)
      = [] := by
  simp [runFor, fwdResume, fwdNext, fwdInner, climb, fwdStart, siblings, rightSiblings, leftSiblings, exTree,
    leaf, Tree.get?, Tree.children, number, descResume, descStart, push, advance, iterate, always, Tree.val]

/-! ## C29 -/

/-- `c` is the deepest node that is an ancestor of, or the same as, both nodes. -/
def Deepest (c a b : Ref) : Prop :=
  c.root = a.root ∧ c.root = b.root ∧ AboveOrSelf c.path a.path ∧ AboveOrSelf c.path b.path ∧
  ∀ d : Path, AboveOrSelf d a.path → AboveOrSelf d b.path → AboveOrSelf d c.path

theorem aboveOrSelf_iff {p q : Path} : AboveOrSelf p q ↔ p = q ∨ Above p q := by
  constructor
  · rintro ⟨r, h⟩
    cases r with
    | nil => exact .inl (by simpa using h.symm)
    | cons i r => exact .inr ⟨i, r, h⟩
  · rintro (rfl | ⟨i, r, h⟩)
    · exact ⟨[], by simp⟩
    · exact ⟨_, h⟩

theorem commonAncestor_eq (a b : Ref) : a.commonAncestor b =
    if b = a then some a else if b ∈ a.ancestors then some b else caLoop2 (a :: a.ancestors) b.ancestors := by
  unfold Ref.commonAncestor
  split
  · rfl
  · rw [caLoop1_eq]
    split
    · rename_i h
      split at h
      · cases h; simp [*]
      · cases h
    · rename_i h
      split at h
      · cases h
      · cases h; simp [*]

theorem caLoop2_none {s : List Ref} {l : List Ref} : caLoop2 s l = none ↔ ∀ n ∈ l, n ∉ s := by
  simp [caLoop2_eq]

/-- Two places above the same place are in line. -/
theorem above_line {p q x : Path} (hp : AboveOrSelf p x) (hq : AboveOrSelf q x) (hl : p.length ≤ q.length) :
    AboveOrSelf p q := by
  obtain ⟨r, h1⟩ := hp
  obtain ⟨s, h2⟩ := hq
  have : p <+: q := List.prefix_of_prefix_length_le ⟨r, h1.symm⟩ ⟨s, h2.symm⟩ hl
  obtain ⟨y, hy⟩ := this
  exact ⟨y, hy.symm⟩

/-- C29: when the nodes are in the same tree, `common_ancestor` returns the deepest
node that is an ancestor of, or the same as, both. -/
theorem C29_common_ancestor (a b : Ref) (h : a.root = b.root) :
    ∃ c, a.commonAncestor b = some c ∧ Deepest c a b := by
  rw [commonAncestor_eq]
  have refl : ∀ p : Path, AboveOrSelf p p := fun p => ⟨[], by simp⟩
  split
  · rename_i hab
    subst hab
    exact ⟨b, rfl, rfl, rfl, refl _, refl _, fun d h _ => h⟩
  rename_i hne
  split
  · rename_i hb
    obtain ⟨h1, h2⟩ := mem_ancestors.mp hb
    exact ⟨b, rfl, h1, rfl, aboveOrSelf_iff.mpr (.inr h2), refl _, fun d _ h => h⟩
  rename_i hb
  have hnb : ¬ Above b.path a.path := fun hb' => hb (mem_ancestors.mpr ⟨h.symm, hb'⟩)
  have hbp : b.path ≠ a.path := fun hp => hne (by cases a; cases b; simp_all)
  rw [caLoop2_eq]
  cases hf : b.ancestors.find? (fun n => decide (n ∈ a :: a.ancestors)) with
  | none =>
    exfalso
    rw [List.find?_eq_none] at hf
    have hbne : b.path ≠ [] := by
      intro h0
      rcases List.eq_nil_or_concat a.path with ha | ⟨q, x, ha⟩
      · exact hbp (by rw [h0, ha])
      · cases hp : a.path with
        | nil => exact hbp (by rw [h0, hp])
        | cons i r => exact hnb ⟨i, r, by rw [hp, h0]; rfl⟩
    have hroot : (⟨b.root, []⟩ : Ref) ∈ b.ancestors := by
      rw [mem_ancestors]
      refine ⟨rfl, ?_⟩
      cases hp : b.path with
      | nil => exact absurd hp hbne
      | cons i r => exact ⟨i, r, rfl⟩
    have := hf _ hroot
    simp only [List.mem_cons, mem_ancestors, decide_eq_true_eq, not_or] at this
    cases hp : a.path with
    | nil => exact this.1 (by obtain ⟨x, y⟩ := a; simp only at hp h; rw [hp, h])
    | cons i r => exact this.2 ⟨h.symm, i, r, by rw [hp]; rfl⟩
  | some c =>
    refine ⟨c, rfl, ?_⟩
    rw [List.find?_eq_some_iff_append] at hf
    obtain ⟨hc, xs, ys, hxy, hfirst⟩ := hf
    have hcb := mem_ancestors.mp (show c ∈ b.ancestors by rw [hxy]; simp)
    have hca : c.root = a.root ∧ AboveOrSelf c.path a.path := by
      simp only [List.mem_cons, decide_eq_true_eq] at hc
      rcases hc with rfl | hc
      · exact ⟨rfl, refl _⟩
      · have := mem_ancestors.mp hc
        exact ⟨this.1, aboveOrSelf_iff.mpr (.inr this.2)⟩
    refine ⟨hca.1, hcb.1, hca.2, aboveOrSelf_iff.mpr (.inr hcb.2), fun d hda hdb => ?_⟩
    have hdb' : Above d b.path := by
      rcases aboveOrSelf_iff.mp hdb with rfl | h'
      · rcases aboveOrSelf_iff.mp hda with h'' | h''
        · exact absurd h'' hbp
        · exact absurd h'' hnb
      · exact h'
    have hd : (⟨b.root, d⟩ : Ref) ∈ b.ancestors := mem_ancestors.mpr ⟨rfl, hdb'⟩
    have hdin : (⟨b.root, d⟩ : Ref) ∈ a :: a.ancestors := by
      rcases aboveOrSelf_iff.mp hda with h' | h'
      · refine List.mem_cons.mpr (.inl ?_)
        cases a; simp_all
      · exact List.mem_cons.mpr (.inr (mem_ancestors.mpr ⟨h.symm, h'⟩))
    rw [hxy, List.mem_append, List.mem_cons] at hd
    rcases hd with hd | rfl | hd
    · have := hfirst _ hd
      simp [hdin] at this
    · exact refl _
    · have hpw := ancestors_pairwise b
      rw [hxy, List.pairwise_append, List.pairwise_cons] at hpw
      exact aboveOrSelf_iff.mpr (.inr (hpw.2.1.1 _ hd))

/-- C29: for nodes of different trees the result is None. -/
theorem C29_different_trees (a b : Ref) : a.commonAncestor b = none ↔ a.root ≠ b.root := by
  constructor
  · intro h hr
    obtain ⟨c, hc, -⟩ := C29_common_ancestor a b hr
    rw [h] at hc
    cases hc
  · intro h
    rw [commonAncestor_eq]
    have h1 : b ≠ a := by rintro rfl; exact h rfl
    have h2 : b ∉ a.ancestors := fun hb => h (mem_ancestors.mp hb).1.symm
    rw [if_neg h1, if_neg h2, caLoop2_none]
    intro n hn hna
    have h3 := (mem_ancestors.mp hn).1
    rcases List.mem_cons.mp hna with rfl | hna
    · exact h h3
    · exact h ((mem_ancestors.mp hna).1.symm.trans h3)

theorem deepest_unique {c d a b : Ref} (hc : Deepest c a b) (hd : Deepest d a b) : c = d := by
  obtain ⟨c1, -, c2, c3, c4⟩ := hc
  obtain ⟨d1, -, d2, d3, d4⟩ := hd
  obtain ⟨r, h1⟩ := c4 _ d2 d3
  obtain ⟨s, h2⟩ := d4 _ c2 c3
  have hl := congrArg List.length h1
  have hl2 := congrArg List.length h2
  simp only [List.length_append] at hl hl2
  have : r = [] := List.length_eq_zero_iff.mp (by omega)
  subst this
  obtain ⟨cr, cp⟩ := c
  obtain ⟨dr, dp⟩ := d
  simp only [List.append_nil] at h1 c1 d1
  rw [h1, c1, ← d1]

/-- C29: the order of the nodes does not matter. -/
theorem C29_symmetric (a b : Ref) : a.commonAncestor b = b.commonAncestor a := by
  by_cases h : a.root = b.root
  · obtain ⟨c, h1, h2⟩ := C29_common_ancestor a b h
    obtain ⟨d, h3, h4⟩ := C29_common_ancestor b a h.symm
    rw [h1, h3, deepest_unique h2 ⟨h4.2.1, h4.1, h4.2.2.2.1, h4.2.2.1, fun x hx hy => h4.2.2.2.2 x hy hx⟩]
  · rw [(C29_different_trees a b).mpr h, (C29_different_trees b a).mpr (Ne.symm h)]

/-- C29: `common_ancestor_with_trail` finds the same ancestor, with the trails
that lead from it to both nodes. -/
theorem C29_with_trail (a b : Ref) :
    match a.commonAncestor b with
    | none => a.commonAncestorWithTrail b = none
    | some c => ∃ ta tb, a.commonAncestorWithTrail b = some (c, ta, tb) ∧
        a.path = c.path ++ ta ∧ b.path = c.path ++ tb := by
  rw [commonAncestor_eq]
  unfold Ref.commonAncestorWithTrail
  by_cases h : b = a
  · subst h; simp
  simp only [h, if_false]
  have h1 := cwLoop1_eq b a.root a.path [] [] [] rfl
  by_cases hb : b ∈ a.ancestors
  · obtain ⟨tr, h2, h3⟩ := h1.1 hb
    have e : (⟨a.root, a.path⟩ : Ref) = a := rfl
    rw [e] at h2
    simp only [hb, if_true, h2]
    exact ⟨_, _, rfl, by simpa using h3, by simp⟩
  · obtain ⟨tr, h2, h3⟩ := h1.2 hb
    have e : (⟨a.root, a.path⟩ : Ref) = a := rfl
    rw [e] at h2
    have h4 : tr = a.path.reverse := by
      rw [List.append_nil] at h3
      rw [← h3, List.reverse_reverse]
    simp only [hb, if_false, h2, List.nil_append, h4]
    have := cwLoop2_eq a b.root b.path [] [] rfl
    have e2 : (⟨b.root, b.path⟩ : Ref) = b := rfl
    rw [e2] at this
    cases hc : caLoop2 (a :: a.ancestors) b.ancestors with
    | none => rw [hc] at this; simpa using this
    | some c => rw [hc] at this; simpa using this

example : (⟨0, [1, 0, 2, 5]⟩ : Ref).commonAncestorWithTrail ⟨0, [1, 0, 3]⟩ = some (⟨0, [1, 0]⟩, [2, 5], [3]) := by
  have := C29_with_trail ⟨0, [1, 0, 2, 5]⟩ ⟨0, [1, 0, 3]⟩
  obtain ⟨c, h1, h2⟩ := C29_common_ancestor ⟨0, [1, 0, 2, 5]⟩ ⟨0, [1, 0, 3]⟩ rfl
  have hc : c = ⟨0, [1, 0]⟩ := deepest_unique h2 ⟨rfl, rfl, ⟨[2, 5], rfl⟩, ⟨[3], rfl⟩, by
    rintro d ⟨r, h3⟩ ⟨s, h4⟩
    simp only at h3 h4
    match d with
    | [] => exact ⟨[1, 0], rfl⟩
    | [x] => simp at h3; exact ⟨[0], by simp [h3]⟩
    | [x, y] => simp at h3; exact ⟨[], by simp [h3]⟩
    | x :: y :: z :: d => simp at h3 h4; omega⟩
  subst hc
  rw [h1] at this
  obtain ⟨ta, tb, h3, h4, h5⟩ := this
  simp at h4 h5
  rw [h3, ← h4, ← h5]

/-! ## C31 -/

/-- The trees have the same shape and the nodes at the same places have equal bodies. -/
def Same (body : α → α → Bool) (t u : Tree α) : Prop :=
  ∀ p, ((t.get? p).isSome ↔ (u.get? p).isSome) ∧
    ∀ a b, t.get? p = some a → u.get? p = some b → body a.val b.val = true

/-- C31: `equals` is true exactly when both trees have nodes at the same places, and
the nodes at every place have the same class and body. -/
theorem C31_equals (body : α → α → Bool) (t u : Tree α) : t.equals body u = true ↔ Same body t u := by
  have key : ∀ k, ∀ t u : Tree α, t.size = k → (t.equals body u = true ↔ Same body t u) := by
    intro k
    induction k using Nat.strongRecOn with
    | _ k ih =>
      rintro ⟨v, cs⟩ ⟨w, ds⟩ hk
      simp only [Tree.equals, Bool.and_eq_true, beq_iff_eq]
      constructor
      · rintro ⟨⟨hl, hb⟩, hall⟩
        rw [equals_all hl] at hall
        intro p
        cases p with
        | nil =>
          refine ⟨by simp [Tree.get?], fun a b ha hb' => ?_⟩
          simp only [Tree.get?, Option.some.injEq] at ha hb'
          subst ha hb'
          exact hb
        | cons i p =>
          simp only [Tree.get?, Tree.children]
          cases hc : cs[i]? with
          | none =>
            have hd : ds[i]? = none := by
              rw [List.getElem?_eq_none_iff] at hc ⊢; omega
            simp [hd]
          | some c =>
            cases hd : ds[i]? with
            | none =>
              rw [List.getElem?_eq_none_iff, ← hl, ← List.getElem?_eq_none_iff, hc] at hd
              cases hd
            | some d =>
              exact (ih _ (hk ▸ size_child (List.mem_of_getElem? hc)) c d rfl).mp (hall i c d hc hd) p
      · intro hs
        have hl : cs.length = ds.length := by
          have := fun i => (hs [i]).1
          simp only [Tree.get?, Tree.children] at this
          have h2 : ∀ i, i < cs.length ↔ i < ds.length := by
            intro i
            have := this i
            by_cases h3 : i < cs.length <;> by_cases h4 : i < ds.length
            · simp [h3, h4]
            · simp [h3, h4] at this
            · simp [h3, h4] at this
            · simp [h3, h4]
          rcases Nat.lt_trichotomy cs.length ds.length with h | h | h
          · have := (h2 cs.length).mpr h; omega
          · exact h
          · have := (h2 ds.length).mp h; omega
        refine ⟨⟨hl, (hs []).2 _ _ rfl rfl⟩, (equals_all hl).mpr fun i c d hc hd => ?_⟩
        refine (ih _ (hk ▸ size_child (List.mem_of_getElem? hc)) c d rfl).mpr fun p => ?_
        have := hs (i :: p)
        simpa only [Tree.get?, Tree.children, hc, hd] using this
  exact key _ t u rfl

/-- C31: so when comparing bodies is an equivalence, `equals` is one. -/
theorem C31_equivalence (body : α → α → Bool) (refl : ∀ a, body a a = true)
    (symm : ∀ a b, body a b = true → body b a = true)
    (trans : ∀ a b c, body a b = true → body b c = true → body a c = true) :
    (∀ t : Tree α, t.equals body t = true) ∧ (∀ t u : Tree α, t.equals body u = true → u.equals body t = true) ∧
    ∀ t u v : Tree α, t.equals body u = true → u.equals body v = true → t.equals body v = true := by
  simp only [C31_equals]
  refine ⟨fun t p => ⟨Iff.rfl, fun a b ha hb => ?_⟩, fun t u h p => ⟨(h p).1.symm, fun a b ha hb => symm _ _ ((h p).2 b a hb ha)⟩,
    fun t u v h k p => ⟨(h p).1.trans (k p).1, fun a c ha hc => ?_⟩⟩
  · rw [ha] at hb
    cases hb
    exact refl _
  · have : (u.get? p).isSome := by rw [← (h p).1, ha]; rfl
    obtain ⟨b, hb⟩ := Option.isSome_iff_exists.mp this
    exact trans _ _ _ ((h p).2 a b ha hb) ((k p).2 b c hb hc)

theorem copy_get? (f : α → α) (t : Tree α) (p : Path) : (t.copy f).get? p = (t.get? p).map (Tree.copy f) := by
  have hgo : ∀ cs : List (Tree α), Tree.copy.go f cs = cs.map (Tree.copy f) := by
    intro cs
    induction cs with
    | nil => rfl
    | cons c cs ih => simp [Tree.copy.go, ih]
  induction p generalizing t with
  | nil => simp [Tree.get?]
  | cons i p ih =>
    obtain ⟨v, cs⟩ := t
    simp only [Tree.copy, Tree.get?, Tree.children, hgo, List.getElem?_map]
    cases cs[i]? with
    | none => rfl
    | some c => exact ih c

theorem copy_val (f : α → α) (t : Tree α) : (t.copy f).val = f t.val := by
  cases t; rfl

/-- C31: a copy equals the original, provided that a new node of the same class has
the same body. -/
theorem C31_copy (body : α → α → Bool) (f : α → α) (hf : ∀ a, body a (f a) = true) (t : Tree α) :
    t.equals body (t.copy f) = true := by
  rw [C31_equals]
  intro p
  rw [copy_get?]
  refine ⟨by simp, fun a b ha hb => ?_⟩
  rw [ha, Option.map_some, Option.some.injEq] at hb
  subst hb
  rw [copy_val]
  exact hf _

/-- C31: without children only the node itself is copied. -/
theorem C31_copy_shallow (f : α → α) (t : Tree α) :
    (t.copyShallow f).val = f t.val ∧ (t.copyShallow f).children = [] := by
  cases t; exact ⟨rfl, rfl⟩

example : exTree.equals (· == ·) (exTree.copy id) = true ∧ exTree.equals (· == ·) exE = false := by decide +kernel

/-! ## C32 -/

/-- C32: `depth()` is the number of proper ancestors: the length of the trail. -/
theorem C32_depth (a : Ref) : a.depth = a.trail.length ∧
    (∀ c, c ∈ a.ancestors ↔ c.root = a.root ∧ Above c.path a.path) ∧ a.ancestors.Nodup := by
  refine ⟨?_, fun c => mem_ancestors, ?_⟩
  · rw [trail_eq]; exact ancestors_length _ _
  · refine (ancestors_pairwise a).imp fun {x y} h he => ?_
    subst he
    exact not_above_self _ h

/-- C32: `root()` is the node without parent at the top. -/
theorem C32_root (a : Ref) : a.rootNode = ⟨a.root, []⟩ := by
  obtain ⟨r, p⟩ := a
  unfold Ref.rootNode
  induction p using List.reverseRecOn with
  | nil => simp [ancestors_nil]
  | append_singleton p i ih =>
    rw [ancestors_snoc]
    rw [List.getLast?_cons]
    exact ih

/-- C32: `height()` is the longest distance to a descendant: some node of the tree is
that deep, and none is deeper. -/
theorem C32_height (t : Tree α) :
    (∃ p, (t.get? p).isSome ∧ p.length = t.height) ∧ ∀ p, (t.get? p).isSome → p.length ≤ t.height := by
  rw [height_eq]
  exact ⟨ht_attained _ t rfl, ht_bound t⟩

example : exTree.height = 3 ∧ (⟨0, [1, 1, 0]⟩ : Ref).depth = 3 ∧ (leaf 'x').height = 0 := by
  refine ⟨by rw [height_eq]; decide, by rw [(C32_depth _).1, trail_eq]; rfl, by rw [height_eq]; rfl⟩

end Quickly.Node
