import Verif.Edits.Lemmas

/-!
# C38: writing back modifications

The theorems are about trees in which the existing elements are still in the order of the
text (`Kept`). For trees in which existing elements have been moved, the property does not hold: see
`C38_moved_loses_text`, where edits overlap and delete unmodified text. Hence the names of the theorems end with `_partial`.
-/

namespace Quickly.Edits

open Quickly.Node Quickly.Text Spec

/-- The position where the edits start. -/
def startOf (ctx : Context) (start : Option ℕ) : ℕ := start.getD ctx.pos

theorem at_start {tokens : List Tok} {s : ℕ} (h : ∀ t ∈ tokens, t.2 ≤ s ∨ s ≤ t.1) : At tokens s tokens :=
  ⟨⟨[], rfl, by simp⟩, h⟩

/-- **C38**: the edits are sorted and do not overlap: every edit starts at or after the end of
those before it. -/
theorem C38_sorted_partial (isSpace : Char → Bool) (cc : Concat) (doc : Str) (ctx : Context) (start stop : Option ℕ)
    (t : Tree Elem) (hp : Parsed isSpace doc ctx.tokens)
    (hs : ∀ k ∈ ctx.tokens, k.2 ≤ startOf ctx start ∨ startOf ctx start ≤ k.1)
    (hk : Kept doc ctx.tokens (startOf ctx start) (points cc t)) :
    (edits cc ctx start stop t).Pairwise (fun a b => a.2.1 ≤ b.1) ∧
    ∀ x ∈ edits cc ctx start stop t, startOf ctx start ≤ x.1 ∧ x.1 ≤ x.2.1 := by
  have h := sorted_loop hp (stop.getD ctx.stop) (points cc t) _ _ [] (at_start hs) hk
  exact ⟨h.pairwise, fun x hx => h.mem hx⟩

/-- **C38**: the new text of the document consists of the text before the start, the texts of all points in
order with whitespace before each one, and the text from the end on. The text of an unmodified
point is that of the document. -/
theorem C38_text_partial (isSpace : Char → Bool) (cc : Concat) (doc : Str) (ctx : Context) (start stop : Option ℕ)
    (t : Tree Elem) (hp : Parsed isSpace doc ctx.tokens)
    (hs : ∀ k ∈ ctx.tokens, k.2 ≤ startOf ctx start ∨ startOf ctx start ≤ k.1)
    (hk : Kept doc ctx.tokens (startOf ctx start) (points cc t))
    (hsp : spacesOnly isSpace (points cc t))
    (he : ∀ pt ∈ points cc t, ∀ p e, pt.range = some (p, e) → e ≤ stop.getD ctx.stop)
    (hse : startOf ctx start ≤ stop.getD ctx.stop) :
    ∃ gaps, gaps.length = (visible (points cc t)).length ∧ (∀ g ∈ gaps, ∀ c ∈ g, isSpace c = true) ∧
      edit cc doc ctx start stop t = doc.take (startOf ctx start) ++
        interleave gaps ((visible (points cc t)).map (shown doc)) ++ doc.drop (stop.getD ctx.stop) := by
  obtain ⟨gaps, h1, h2, h3⟩ := apply_loop hp (stop.getD ctx.stop) (points cc t) hsp _ _ [] (at_start hs) hk (by simp) 0
    (Nat.zero_le _)
  refine ⟨gaps, h1, h2, ?_⟩
  have hl : ∀ (pts : List Point) (pos : ℕ), (∀ pt ∈ pts, ∀ p e, pt.range = some (p, e) → e ≤ stop.getD ctx.stop) →
      pos ≤ stop.getD ctx.stop → lastEnd pos pts ≤ stop.getD ctx.stop := by
    intro pts
    induction pts with
    | nil => intro pos _ h; exact h
    | cons pt pts ih =>
      intro pos h hpos
      rw [lastEnd]
      split
      · rename_i a e hr
        exact ih e (fun q hq => h q (by simp [hq])) (h pt (by simp) a e hr)
      · exact ih pos (fun q hq => h q (by simp [hq])) hpos
  rw [edit, edits]
  rw [show start.getD ctx.pos = startOf ctx start from rfl, h3, slice_zero,
    show max (lastEnd (startOf ctx start) (points cc t)) (stop.getD ctx.stop) = stop.getD ctx.stop by
      have := hl _ _ he hse; omega]

/-- **C38**: no edit touches the text of an element that has not been modified. -/
theorem C38_untouched_partial (isSpace : Char → Bool) (cc : Concat) (doc : Str) (ctx : Context) (start stop : Option ℕ)
    (t : Tree Elem) (hp : Parsed isSpace doc ctx.tokens)
    (hs : ∀ k ∈ ctx.tokens, k.2 ≤ startOf ctx start ∨ startOf ctx start ≤ k.1)
    (hk : Kept doc ctx.tokens (startOf ctx start) (points cc t))
    (pt : Point) (hpt : pt ∈ points cc t) (hm : pt.modified = false) (p e : ℕ) (hr : pt.range = some (p, e)) :
    ∀ x ∈ edits cc ctx start stop t, x.2.1 ≤ p ∨ e ≤ x.1 :=
  untouched_loop hp (stop.getD ctx.stop) (points cc t) _ _ [] (at_start hs) hk pt hpt hm p e hr

/-- **C38**: a token (from the start to the end) that is not in the text of an existing element is inside an
edit, so it is deleted. -/
theorem C38_removed_partial (isSpace : Char → Bool) (cc : Concat) (doc : Str) (ctx : Context) (start stop : Option ℕ)
    (t : Tree Elem) (hp : Parsed isSpace doc ctx.tokens)
    (hs : ∀ k ∈ ctx.tokens, k.2 ≤ startOf ctx start ∨ startOf ctx start ≤ k.1)
    (hk : Kept doc ctx.tokens (startOf ctx start) (points cc t))
    (k : Tok) (hkt : k ∈ ctx.tokens) (h1 : startOf ctx start ≤ k.1) (h2 : k.2 ≤ stop.getD ctx.stop)
    (hno : ∀ pt ∈ points cc t, ∀ p e, pt.range = some (p, e) → ¬ (p ≤ k.1 ∧ k.2 ≤ e)) :
    ∃ x ∈ edits cc ctx start stop t, x.1 ≤ k.1 ∧ k.2 ≤ x.2.1 := by
  rcases removed_loop hp (stop.getD ctx.stop) (points cc t) _ _ [] (at_start hs) hk k hkt h1 h2 with
    ⟨pt, hpt, p, e, hr, h⟩ | h
  · exact absurd h (hno pt hpt p e hr)
  · exact h

/-- **C38**: if nothing has been modified, added or removed, the only edits insert whitespace, at
the start of a text that has no whitespace before it. -/
theorem C38_unchanged (isSpace : Char → Bool) (cc : Concat) (doc : Str) (ctx : Context) (start stop : Option ℕ)
    (t : Tree Elem) (hp : Parsed isSpace doc ctx.tokens)
    (hs : ∀ k ∈ ctx.tokens, k.2 ≤ startOf ctx start ∨ startOf ctx start ≤ k.1)
    (hk : Kept doc ctx.tokens (startOf ctx start) (points cc t))
    (hsp : spacesOnly isSpace (points cc t))
    (hall : ∀ pt ∈ points cc t, pt.range.isSome = true ∧ pt.modified = false)
    (hcov : ∀ k ∈ ctx.tokens, startOf ctx start ≤ k.1 →
      ∃ pt ∈ points cc t, ∃ p e, pt.range = some (p, e) ∧ p ≤ k.1 ∧ k.2 ≤ e)
    (hstop : stop.getD ctx.stop ≤ startOf ctx start ∨ ∃ k ∈ ctx.tokens, k.2 = stop.getD ctx.stop) :
    ∀ x ∈ edits cc ctx start stop t, x.1 = x.2.1 ∧ x.2.2 ≠ [] ∧ (∀ c ∈ x.2.2, isSpace c = true) ∧
      (∃ pt ∈ points cc t, ∃ e, pt.range = some (x.1, e)) ∧
      (x.1 = startOf ctx start ∨ ∃ pt ∈ points cc t, ∃ p, pt.range = some (p, x.1)) :=
  unchanged_loop hp (stop.getD ctx.stop) (points cc t) hsp _ _ [] (at_start hs) hk (by simp) hall hcov hstop

/-! ### Example: `{ c d }` in which `c` becomes `fis`, `g` is added and `d` removed -/

def exDoc : Str := "{ c d }".toList

def exContext : Context := ⟨0, 7, [(0, 1), (2, 3), (4, 5), (6, 7)]⟩

/-- A music list with these children. -/
def exList (cs : List (Tree Elem)) : Tree Elem :=
  .node { kind := .block, head := ['{'], tail := ['}'], headOrigin := some (0, 1), tailOrigin := some (6, 7),
          sp := { afterHead := [' '], between := [' '], beforeTail := [' '] } } cs

def exC : Elem := { kind := .head, head := ['c'], headOrigin := some (2, 3) }
def exD : Elem := { kind := .head, head := ['d'], headOrigin := some (4, 5) }
def exFis : Elem := { exC with head := "fis".toList, headModified := true }
def exG : Elem := { kind := .head, head := ['g'] }

def exTree : Tree Elem := exList [.node exFis [], .node exG []]

def exSpace (c : Char) : Bool := c == ' '

example : edits defaultConcat exContext none none exTree =
    [(2, 3, "fis".toList), (3, 3, " g".toList), (3, 6, " ".toList)] := by decide +kernel

example : edit defaultConcat exDoc exContext none none exTree = "{ fis g }".toList := by decide +kernel

theorem exParsed : Parsed exSpace exDoc exContext.tokens := by
  refine ⟨by decide, by decide, ?_⟩
  intro i c h1 h2
  match i, h1, h2 with
  | 0, h, h2 => exact absurd (h2 (0, 1) (by decide)) (by decide)
  | 1, h, _ => cases h; rfl
  | 2, h, h2 => exact absurd (h2 (2, 3) (by decide)) (by decide)
  | 3, h, _ => cases h; rfl
  | 4, h, h2 => exact absurd (h2 (4, 5) (by decide)) (by decide)
  | 5, h, _ => cases h; rfl
  | 6, h, h2 => exact absurd (h2 (6, 7) (by decide)) (by decide)
  | i + 7, h, _ => simp [exDoc] at h

/-- The points of the example. -/
theorem exPoints : (points defaultConcat exTree).map (fun pt => (pt.range, pt.text, pt.modified, pt.before, pt.after)) =
    [(some (0, 1), ['{'], false, [], [' ']), (some (2, 3), "fis".toList, true, [], [' ']),
      (none, ['g'], false, [], []), (some (6, 7), ['}'], false, [' '], [])] := by decide +kernel

example : Kept exDoc exContext.tokens (startOf exContext none) (points defaultConcat exTree) := by
  have hp : points defaultConcat exTree = [⟨some (0, 1), ['{'], false, [], [' ']⟩,
      ⟨some (2, 3), "fis".toList, true, [], [' ']⟩, ⟨none, ['g'], false, [], []⟩,
      ⟨some (6, 7), ['}'], false, [' '], []⟩] := by rfl
  rw [hp]
  constructor
  · intro pt hpt p e hr
    simp only [List.mem_cons, List.not_mem_nil, or_false] at hpt
    rcases hpt with rfl | rfl | rfl | rfl
    · cases hr; decide
    · cases hr; decide
    · cases hr
    · cases hr; decide
  · simp only [List.pairwise_cons, List.mem_cons, List.not_mem_nil, or_false]
    refine ⟨?_, ?_, ?_, by simp, List.Pairwise.nil⟩
    · rintro q (rfl | rfl | rfl) p e a b h1 h2 <;> cases h1 <;> cases h2 <;> decide
    · rintro q (rfl | rfl) p e a b h1 h2 <;> cases h1 <;> cases h2 <;> decide
    · rintro q rfl p e a b h1 h2; cases h1

/-! ### Elements that have been moved -/

/-- If the notes of `{ c d }` are exchanged (keeping their origins), the first edit deletes the
text of `c`, which has not been modified, no edit writes it, and the second edit is inside the first one. -/
theorem C38_moved_loses_text :
    edits defaultConcat exContext none none (exList [.node exD [], .node exC []]) =
      [(1, 4, [' ']), (2, 2, [' '])] := by
  decide +kernel

/-! ### Range -/

/-- With a start after an existing element that comes first, the start is of no importance: the edits are those
with the position of that element as the start. -/
theorem C38_start_after_first (cc : Concat) (ctx : Context) (start s : ℕ) (stop : Option ℕ) (t : Tree Elem)
    (pt : Point) (pts : List Point) (hpt : points cc t = pt :: pts) (p e : ℕ) (hr : pt.range = some (p, e))
    (h1 : p ≤ start) (h2 : p ≤ s) : edits cc ctx (some start) stop t = edits cc ctx (some s) stop t := by
  rw [edits, edits, hpt, loop.eq_def, loop.eq_def]
  simp only [hr, Option.getD_some]
  have : ∀ x, p ≤ x → before p x (collapse [[], pt.before]) ctx.tokens =
      before p p (collapse [[], pt.before]) ctx.tokens := by
    intro x hx
    unfold before
    rw [if_neg (show ¬ p > x by omega), if_neg (show ¬ p > p by omega)]
  rw [this start h1, this s h2]

/-- So text outside the given range can be deleted: here that of `c`, which has been removed, although
the range starts after it. -/
theorem C38_deletes_outside_range :
    edit defaultConcat exDoc exContext (some 4) none (exList [.node exD []]) = "{ d }".toList := by
  decide +kernel

end Quickly.Edits
