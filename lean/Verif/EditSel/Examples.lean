import Verif.EditSel.Props

/-! # Examples for C88: `{ c d e }` in which `d e` is selected; `d` becomes `fis`, `e` is removed and `g` added -/

namespace Quickly.EditSel

open Quickly.Node Quickly.Text Quickly.Edits Quickly.Edits.Spec Quickly.Find Quickly.Find.Spec Quickly.Cursor Spec

def exText : Str := "{ c d e }".toList

def exCtx : Context := ⟨0, 9, [(0, 1), (2, 3), (4, 5), (6, 7), (8, 9)]⟩

/-- A space. -/
def blank (c : Char) : Bool := c == ' '

/-- A note. -/
def note (c : Char) (p : ℕ) : Node.Tree Elem := .node { kind := .head, head := [c], headOrigin := some (p, p + 1) } []

/-- The music list. -/
def list (cs : List (Node.Tree Elem)) : Node.Tree Elem :=
  .node { kind := .block, head := ['{'], tail := ['}'], headOrigin := some (0, 1), tailOrigin := some (8, 9),
          sp := { afterHead := [' '], between := [' '], beforeTail := [' '] } } cs

def exTree1 : Node.Tree Elem := .node { kind := .plain } [list [note 'c' 2, note 'd' 4, note 'e' 6]]

/-- The new notes. -/
def newNotes : List (Node.Tree Elem) :=
  [.node { kind := .head, head := "fis".toList, headModified := true, headOrigin := some (4, 5) } [],
    .node { kind := .head, head := ['g'] } []]

/-- An edit that puts them at the place of the nodes from the second child on. -/
def exEdit (_ : Job) (a : Node.Tree Elem) : Py (Node.Tree Elem) := .ok (list (a.children.take 1 ++ newNotes))

/-- What `Kept` says, to be checked. -/
def keptAt (doc : Str) (tokens : List Edits.Tok) (start : ℕ) (pt : Point) : Bool := match pt.range with
  | none => true
  | some (p, e) => decide (start ≤ p) && decide (p < e) && decide (e ≤ doc.length) && tokens.any (fun t => t.1 == p) &&
      tokens.any fun t => t.2 == e

/-- The order of two points. -/
def orderOf (a b : Point) : Bool := match a.range, b.range with
  | some (_, e), some (q, _) => decide (e ≤ q)
  | _, _ => true

theorem kept_of {doc : Str} {tokens : List Edits.Tok} {start : ℕ} {pts : List Point}
    (h1 : pts.all (keptAt doc tokens start) = true) (h2 : pts.Pairwise fun a b => orderOf a b = true) :
    Kept doc tokens start pts := by
  refine ⟨?_, h2.imp ?_⟩
  · intro pt hpt p e hr
    have := List.all_eq_true.1 h1 pt hpt
    simp only [keptAt, hr, Bool.and_eq_true, decide_eq_true_eq, List.any_eq_true, beq_iff_eq] at this
    obtain ⟨⟨⟨⟨a1, a2⟩, a3⟩, a4⟩, a5⟩ := this
    exact ⟨a1, a2, a3, a4, a5⟩
  · intro a b hab p e q f ha hb
    simpa [orderOf, ha, hb] using hab

theorem exParsed1 : Parsed blank exText exCtx.tokens := by
  refine ⟨by decide, by decide, ?_⟩
  have h : ∀ i < 9, (exCtx.tokens.any fun t => decide (t.1 ≤ i) && decide (i < t.2)) = true ∨
      (exText[i]?.all blank) = true := by decide +kernel
  intro i c h1 h2
  rcases Nat.lt_or_ge i 9 with hi | hi
  · rcases h i hi with h | h
    · rw [List.any_eq_true] at h
      obtain ⟨t, ht, h⟩ := h
      simp only [Bool.and_eq_true, decide_eq_true_eq] at h
      rcases h2 t ht with h3 | h3 <;> omega
    · rw [h1] at h
      exact h
  · rw [List.getElem?_eq_none (show exText.length ≤ i from hi)] at h1
    cases h1

theorem exPoints1 : points defaultConcat exTree1 = [⟨some (0, 1), ['{'], false, [], [' ']⟩, ⟨some (2, 3), ['c'], false, [], [' ']⟩,
    ⟨some (4, 5), ['d'], false, [], [' ']⟩, ⟨some (6, 7), ['e'], false, [], []⟩, ⟨some (8, 9), ['}'], false, [' '], []⟩] := by
  rfl

theorem exIntact : Intact exText exCtx.tokens (points defaultConcat exTree1) := by
  rw [exPoints1]
  refine ⟨by decide +kernel, kept_of (by decide +kernel) (by decide +kernel), ?_⟩
  intro k hk
  simp only [exCtx, List.mem_cons, List.not_mem_nil, or_false] at hk
  rcases hk with rfl | rfl | rfl | rfl | rfl
  · exact ⟨_, List.mem_cons_self, _, _, rfl, by decide, by decide⟩
  · exact ⟨_, by right; left, _, _, rfl, by decide, by decide⟩
  · exact ⟨_, by right; right; left, _, _, rfl, by decide, by decide⟩
  · exact ⟨_, by right; right; right; left, _, _, rfl, by decide, by decide⟩
  · exact ⟨_, by right; right; right; right; left, _, _, rfl, by decide, by decide⟩

theorem exJob : job (orgs exTree1) ⟨4, 7⟩ false false = .ok ⟨⟨0, [0]⟩, some [1], some [2], some 4, some 7⟩ := by
  simp [job, Cursor.hasSelection, findRight, findLeft, walk, lookRight, lookLeft, iterate, number, orgs, orgs.go, orgOf, exTree1,
    list, note, tok, Find.pos, headPos, Find.stop, stop.kids, Tree.val, Tree.children, descendants, descendants.go, refOf,
    NodeRange.fromNodes]
  decide +kernel

/-- The new points. -/
def exMid : List Point := ((points defaultConcat (list (note 'c' 2 :: newNotes))).drop 2).take 2

/-- The example meets the hypotheses of `C88_selection`. -/
theorem C88_selection_nontrivial :
    Parsed blank exText exCtx.tokens ∧ Around exCtx ∧ Intact exText exCtx.tokens (points defaultConcat exTree1) ∧
    ∃ j a a', job (orgs exTree1) ⟨4, 7⟩ false false = .ok j ∧ exTree1.get? j.ancestor.path = some a ∧ exEdit j a = .ok a' ∧
      (j.start.map Int.toNat).getD exCtx.pos = 4 ∧ (j.stop.map Int.toNat).getD exCtx.stop = 7 ∧
      OnlyBetween exText exCtx.tokens 4 7 (points defaultConcat a) (points defaultConcat a') exMid ∧
      spacesOnly blank (points defaultConcat a') ∧
      editCursor defaultConcat exText exCtx exTree1 ⟨4, 7⟩ {} exEdit = .ok ("{ c fis g }".toList, 3) := by
  refine ⟨exParsed1, ⟨by decide, by decide⟩, exIntact, _, list [note 'c' 2, note 'd' 4, note 'e' 6],
    list (note 'c' 2 :: newNotes), exJob, rfl, rfl, rfl, rfl, ?_, ?_, ?_⟩
  · refine ⟨(points defaultConcat (list (note 'c' 2 :: newNotes))).take 2,
      (points defaultConcat (list (note 'c' 2 :: newNotes))).drop 4, by rfl, by decide +kernel, by decide +kernel,
      kept_of (by decide +kernel) (by decide +kernel), ?_⟩
    have : ∀ pt ∈ exMid, pt.range = none ∨ pt.range = some (4, 5) := by decide +kernel
    intro pt hpt p q hr
    rcases this pt hpt with h | h <;> rw [h] at hr <;> cases hr
    decide
  · unfold spacesOnly
    decide +kernel
  · rw [editCursor, exJob]
    decide +kernel

/-! ### Whitespace outside the selection -/

/-- The same without a space after the brace and with one character less. -/
def tightTree : Node.Tree Elem :=
  .node { kind := .plain } [.node { kind := .block, head := ['{'], tail := ['}'], headOrigin := some (0, 1),
                                    tailOrigin := some (5, 6),
                                    sp := { afterHead := [' '], between := [' '], beforeTail := [' '] } }
    [note 'c' 1, note 'd' 3, note 'e' 4]]

/-- An edit that changes nothing. -/
def noEdit (_ : Job) (a : Node.Tree Elem) : Py (Node.Tree Elem) := .ok a

/-- C88: an edit of the selection `de` in `{c de}` that changes nothing inserts spaces, also outside the selection, and counts
them as changes. -/
theorem C88_inserts_outside :
    editCursor defaultConcat "{c de}".toList ⟨0, 6, [(0, 1), (1, 2), (3, 4), (4, 5), (5, 6)]⟩ tightTree ⟨3, 5⟩ {} noEdit =
      .ok ("{ c d e }".toList, 3) := by
  have hj : job (orgs tightTree) ⟨3, 5⟩ false false = .ok ⟨⟨0, [0]⟩, some [1], some [2], some 3, some 5⟩ := by
    simp [job, Cursor.hasSelection, findRight, findLeft, walk, lookRight, lookLeft, iterate, number, orgs, orgs.go, orgOf,
      tightTree, note, tok, Find.pos, headPos, Find.stop, stop.kids, Tree.val, Tree.children, descendants, descendants.go, refOf,
      NodeRange.fromNodes]
    decide +kernel
  rw [editCursor, hj]
  decide +kernel

end Quickly.EditSel
