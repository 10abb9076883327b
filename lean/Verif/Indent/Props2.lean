import Verif.Indent.Depth

/-! # C62: the indents of the lines -/

namespace Quickly.Indent

open Quickly.Node Quickly.Text Layout

/-- Lines as they are written: the indent in spaces, the text and a newline. -/
def printed (lines : List (ℤ × Str)) : Str :=
  lines.flatMap fun l => List.replicate l.1.toNat ' ' ++ l.2 ++ ['\n']

/-- The lines without blank lines at the begin, and without whitespace at the begin of the first line (its
indent is kept). -/
inductive Trimmed (isSpace : Char → Bool) : List (ℤ × Str) → List (ℤ × Str) → Prop
  /-- there are only blank lines -/
  | none {ls : List (ℤ × Str)} (h : ∀ l ∈ ls, ∀ c ∈ l.2, isSpace c = true) : Trimmed isSpace ls []
  /-- `pre` are blank lines, `lead` is whitespace and there is something visible in `text` -/
  | some {pre rest : List (ℤ × Str)} {i : ℤ} {lead text : Str} (h : ∀ l ∈ pre, ∀ c ∈ l.2, isSpace c = true)
      (hl : ∀ c ∈ lead, isSpace c = true) (ht : ∃ c ∈ text, isSpace c = false) :
      Trimmed isSpace (pre ++ (i, lead ++ text) :: rest) ((i, text) :: rest)

theorem strIsSpace_iff (isSpace : Char → Bool) (x : Str) (hx : x ≠ []) :
    strIsSpace isSpace x = true ↔ ∀ c ∈ x, isSpace c = true := by
  cases x with
  | nil => exact absurd rfl hx
  | cons a x => simp [strIsSpace]

theorem strip_trimmed (isSpace : Char → Bool) (bs : List Block) (h : ∀ b ∈ bs, ∀ x ∈ b.line, x ≠ []) :
    Trimmed isSpace (bs.map fun b => (b.indent, b.text)) ((strip isSpace bs).map fun b => (b.indent, b.text)) := by
  induction bs with
  | nil => exact .none (by simp)
  | cons b bs ih =>
    have ih := ih fun b hb => h b (by simp [hb])
    have hsplit : b.line = b.line.takeWhile (strIsSpace isSpace) ++ b.line.dropWhile (strIsSpace isSpace) :=
      (List.takeWhile_append_dropWhile).symm
    have htake : ∀ x ∈ b.line.takeWhile (strIsSpace isSpace), ∀ c ∈ x, isSpace c = true := by
      intro x hx
      have h1 : strIsSpace isSpace x = true := by
        have := List.all_takeWhile (l := b.line) (p := strIsSpace isSpace)
        exact (List.all_eq_true.mp this) x hx
      have h2 : x ∈ b.line := by rw [hsplit]; exact List.mem_append_left _ hx
      exact (strIsSpace_iff isSpace x (h b (by simp) x h2)).mp h1
    rw [strip]
    cases hd : b.line.dropWhile (strIsSpace isSpace) with
    | nil =>
      rw [hd, List.append_nil] at hsplit
      have hb : ∀ c ∈ b.text, isSpace c = true := by
        intro c hc
        rw [Block.text, hsplit] at hc
        obtain ⟨x, hx, hc⟩ := List.mem_flatten.mp hc
        exact htake x hx c hc
      simp only [List.map_cons]
      generalize (strip isSpace bs).map (fun b => (b.indent, b.text)) = out at ih
      generalize bs.map (fun b => (b.indent, b.text)) = ls at ih
      cases ih with
      | none h =>
        refine .none ?_
        intro l hl
        rcases List.mem_cons.mp hl with rfl | hl
        · exact hb
        · exact h l hl
      | some h hl ht =>
        rw [← List.cons_append]
        refine .some ?_ hl ht
        intro l hl
        rcases List.mem_cons.mp hl with rfl | hl
        · exact hb
        · exact h l hl
    | cons x xs =>
      simp only [List.map_cons]
      have ht : b.text = (b.line.takeWhile (strIsSpace isSpace)).flatten ++ (x :: xs).flatten := by
        conv => lhs; rw [Block.text, hsplit, hd, List.flatten_append]
      rw [ht]
      refine Trimmed.some (pre := []) (by simp) ?_ ?_
      · intro c hc
        obtain ⟨y, hy, hc⟩ := List.mem_flatten.mp hc
        exact htake y hy c hc
      · have h1 : ¬ strIsSpace isSpace x = true := by
          have := List.head?_dropWhile_not (strIsSpace isSpace) b.line
          rw [hd] at this
          simpa using this
        have h2 : x ∈ b.line := by rw [hsplit, hd]; simp
        rw [strIsSpace_iff isSpace x (h b (by simp) x h2)] at h1
        simp only [not_forall, Bool.not_eq_true] at h1
        obtain ⟨c, hc, h1⟩ := h1
        exact ⟨c, by simp [Block.text, hc], h1⟩

/-- **C62**: `Indenter.write` outputs the lines of the layout, if every element that indents its
children has a head and a tail text. -/
theorem C62_layout (isSpace : Char → Bool) (cc : Concat) (cfg : Config) (t : Tree Elem) (ht : Enclosed t) :
    ∃ lines, Trimmed isSpace (layout cc cfg t) lines ∧ writeIndented isSpace cc cfg t = .ok (printed lines) := by
  obtain ⟨out, ho⟩ := C42_no_error isSpace cc cfg t
  have h := rel_node cc cfg (-1) t _ _ ht (rel_initial cfg)
  refine ⟨(blocks isSpace cc cfg t).map fun b => (b.indent, b.text), ?_, ?_⟩
  · rw [layout_eq cc cfg t ht, blocks]
    apply strip_trimmed
    intro b hb
    rcases List.mem_append.mp hb with hb | hb
    · exact h.old b hb
    · rw [List.mem_singleton.mp hb]; exact h.pieces
  · rw [ho, writeIndented_eq isSpace cc cfg t out ho, printed, List.flatMap_map]
    rfl

/-- **C62**: if nothing is aligned, every line is indented by `start_indent` and `indent_width`
for every level that is open at its begin. -/
theorem C62_depth (isSpace : Char → Bool) (cc : Concat) (cfg : Config) (t : Tree Elem) (ht : Enclosed t)
    (hu : Unaligned cfg t) :
    ∃ lines,
      Trimmed isSpace ((depths cc t).map fun l => (cfg.startIndent + cfg.indentWidth * l.1, l.2)) lines ∧
      writeIndented isSpace cc cfg t = .ok (printed lines) := by
  rw [← layout_depths cc cfg t ht hu]
  exact C62_layout isSpace cc cfg t ht

/-! ### Examples -/

example : Enclosed exBlocks := by
  simp [exBlocks, Enclosed, Enclosed.all]
example : Unaligned {} exBlocks := by
  simp [exBlocks, Unaligned, Unaligned.all]
example : depths defaultConcat exBlocks =
    [(0, [' ', '{']), (1, ['a']), (1, ['{']), (2, ['b']), (1, ['}']), (0, ['}'])] := by decide +kernel

/-! ### Alignment -/

/-- A text. -/
def exText (s : String) (cs : List (Tree Elem) := []) : Tree Elem := .node { kind := .head, head := s.toList } cs

/-- A text with a newline before it. -/
def exLine (s : String) (cs : List (Tree Elem) := []) : Tree Elem :=
  .node { kind := .head, head := s.toList, sp := { before := ['\n'] } } cs

/-- A block that aligns its children with the first, like a `lily.MusicList`. -/
def exList (cs : List (Tree Elem)) : Tree Elem :=
  .node { kind := .block, head := ['{'], tail := ['}'], indent := true, align := [0],
          sp := { afterHead := [' '], between := [' '], beforeTail := [' '] } } cs

/-- Indented output as a string. -/
def exWrite (t : Tree Elem) : Option String :=
  match writeIndented asciiSpace defaultConcat {} t with
  | .ok s => some (String.ofList s)
  | .error _ => none

/-- A second line is aligned with the first child. -/
example : exWrite (exList [exText "c", exLine "d"]) = some "{ c\n  d }\n" := by decide +kernel

/-- **C62**, alignment: a new line should align with the *child* that has an index in
`indent_align_indices()`. It does not, if a child on the same line has a child with the same
index itself: `{ c' d8` and then `e`: the line is aligned with the `8`. -/
theorem C62_align_grandchild :
    exWrite (exList [exText "c" [exText "'"], exText "d" [exText "8"], exLine "e"]) =
      some "{ c' d8\n      e }\n" := by decide +kernel

/-- **C62**, alignment: if a level that was opened on an earlier line is closed within the line, lines are
not aligned: the `d` should be below the `c`, which is in the tenth column. -/
theorem C62_align_shifted :
    exWrite (.node { kind := .plain, sp := { between := [' '] } }
      [exList [exText "a", exLine "bbb"], exList [exText "c", exLine "d"]]) =
      some "{ a\n  bbb } { c\n        d }\n" := by decide +kernel

/-- A block with newlines after the head and before the tail. -/
def exBlock (beforeTail : Str) (cs : List (Tree Elem)) : Tree Elem :=
  .node { kind := .block, head := ['{'], tail := ['}'], indent := true,
          sp := { afterHead := ['\n'], beforeTail := beforeTail } } cs

/-- An element that indents its children and has no tail text. -/
def exOpen (cs : List (Tree Elem)) : Tree Elem :=
  .node { kind := .head, head := ['x'], indent := true, sp := { afterHead := ['\n'] } } cs

/-- Closing texts at the begin of a line: the line has the indent of the last one. -/
example : exWrite (exBlock [] [exBlock [] [exBlock ['\n'] [exText "b"]]]) =
    some "{\n  {\n    {\n      b\n}}}\n" := by decide +kernel

/-- **C62** needs that indenting elements have a tail text: when one without it is closed together with
others, one level is removed only, and the last line below has an indent of 4, although the closing text
of the outermost element is the last at its begin. No element of `quickly.dom` is like that. -/
theorem C62_not_enclosed :
    exWrite (exBlock [] [exOpen [exBlock ['\n'] [exText "b"]]]) =
      some "{\n  x\n    {\n      b\n    }}\n" := by decide +kernel

end Quickly.Indent
