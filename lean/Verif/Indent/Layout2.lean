import Verif.Indent.Layout
import Verif.Indent.Props

/-!
# C62: the layout of indented text
-/

namespace Quickly.Indent

open Quickly.Node Quickly.Text Layout

/-- The level that an indenter stands for. -/
def lvl (b : Block) (l : Level) : Lvl :=
  .opened l.alignIndices (l.alignPositions.map fun kv => (kv.1, b.offset kv.2))

/-- The state of the indenter `s` and the page `p` agree. On a line with only tails there are at
most `d` levels that are closed and still on the stack. -/
structure Rel (cfg : Config) (d : ℕ) (s : St) (p : Page) : Prop where
  lines : p.lines = s.done.map fun b => (b.indent, b.text)
  indent : p.indent = s.cur.indent
  text : p.text = s.cur.text
  wishes : p.wishes = s.whitespace
  levels : p.levels = s.indenters.map (lvl s.cur) ++ (s.stack.drop s.dedenters).map .fixed
  dedenters : s.dedenters ≤ s.stack.length
  pieces : ∀ x ∈ s.cur.line, x ≠ []
  positions : ∀ l ∈ s.indenters, ∀ kv ∈ l.alignPositions, kv.2 ≤ s.cur.line.length
  fresh : p.fresh = true → s.indenters = [] ∧ s.dedenters ≤ d ∧ s.cur.indent = currentIndent cfg s.stack ∧
    (s.canDedent = false → s.stack = [])
  canDedent : s.canDedent = true → p.fresh = true
  old : ∀ b ∈ s.done, ∀ x ∈ b.line, x ≠ []

theorem offset_put (b : Block) (x : Str) {pos : ℕ} (h : pos ≤ b.line.length) :
    Block.offset { b with line := b.line ++ [x] } pos = b.offset pos := by
  simp only [Block.offset, List.take_append_of_le_length h]

theorem lvl_put (b : Block) (x : Str) (l : Level) (h : ∀ kv ∈ l.alignPositions, kv.2 ≤ b.line.length) :
    lvl { b with line := b.line ++ [x] } l = lvl b l := by
  simp only [lvl]
  congr 1
  apply List.map_congr_left
  intro kv hkv
  rw [offset_put b x (h kv hkv)]

theorem get_map (f : ℕ → ℕ) (d : PyDict ℤ ℕ) (k : ℤ) :
    PyDict.get k (d.map fun kv => (kv.1, f kv.2)) = (PyDict.get k d).map f := by
  induction d with
  | nil => rfl
  | cons kv d ih =>
    simp only [List.map_cons, PyDict.get]
    split
    · rfl
    · exact ih

theorem set_map (f : ℕ → ℕ) (d : PyDict ℤ ℕ) (k : ℤ) (v : ℕ) :
    (PyDict.set k v d).map (fun kv => (kv.1, f kv.2)) = PyDict.set k (f v) (d.map fun kv => (kv.1, f kv.2)) := by
  induction d with
  | nil => rfl
  | cons kv d ih =>
    simp only [List.map_cons, PyDict.set]
    split
    · rfl
    · rw [List.map_cons, ih]

theorem mem_set {d : PyDict ℤ ℕ} {k : ℤ} {v : ℕ} {kv : ℤ × ℕ} (h : kv ∈ PyDict.set k v d) :
    kv ∈ d ∨ kv.2 = v := by
  induction d with
  | nil => simp only [PyDict.set, List.mem_singleton] at h; subst h; exact .inr rfl
  | cons a d ih =>
    simp only [PyDict.set] at h
    split at h
    · rcases List.mem_cons.mp h with rfl | h
      · exact .inr rfl
      · exact .inl (by simp [h])
    · rcases List.mem_cons.mp h with rfl | h
      · exact .inl (by simp)
      · rcases ih h with h | h
        · exact .inl (by simp [h])
        · exact .inr h

theorem column_map (f : ℕ → ℕ) (d : PyDict ℤ ℕ) (is : List ℤ) :
    column (d.map fun kv => (kv.1, f kv.2)) is = (alignLoop d is).map f := by
  induction is with
  | nil => rfl
  | cons i is ih =>
    simp only [column, alignLoop, get_map]
    cases PyDict.get i d with
    | some v => rfl
    | none => exact ih

/-! ### A new line -/

theorem base_fixed (start : ℤ) (ls : List Level) (b : Block) (stack : List ℤ) (cfg : Config) (h : cfg.startIndent = start) :
    base start (ls.map (lvl b) ++ stack.map .fixed) = currentIndent cfg stack := by
  induction ls with
  | nil =>
    cases stack with
    | nil => simp [base, currentIndent, h]
    | cons i stack => rfl
  | cons l ls ih => exact ih

/-- The indent of one new level. -/
def levelIndent (cfg : Config) (last : Block) (current new : ℤ) (l : Level) : ℤ :=
  match l.getAlignPos with
  | some pos =>
    if (last.offset pos : ℤ) ≤ cfg.maxAlignIndent then current + last.offset pos
    else new + cfg.indentWidth
  | none => new + cfg.indentWidth

theorem addLevels_snoc (cfg : Config) (last : Block) (current : ℤ) (ls : List Level) (l : Level) (stack : List ℤ) :
    addLevels cfg last current (currentIndent cfg stack) (ls ++ [l]) stack =
      levelIndent cfg last current (currentIndent cfg (addLevels cfg last current (currentIndent cfg stack) ls stack)) l ::
        addLevels cfg last current (currentIndent cfg stack) ls stack := by
  induction ls generalizing stack with
  | nil => rfl
  | cons m ls ih =>
    simp only [List.cons_append, addLevels]
    exact ih (levelIndent cfg last current (currentIndent cfg stack) m :: stack)

theorem headD_current (cfg : Config) (stack : List ℤ) : stack.headD cfg.startIndent = currentIndent cfg stack := by
  cases stack <;> rfl

theorem go_fixed (cfg : Config) (b : ℤ) (stack : List ℤ) : settle.go cfg b (stack.map .fixed) = stack := by
  induction stack with
  | nil => rfl
  | cons i stack ih => simp only [List.map_cons, settle.go, ih]

theorem go_eq (cfg : Config) (last : Block) (current : ℤ) (ls : List Level) (stack : List ℤ) :
    settle.go cfg current (ls.map (lvl last) ++ stack.map .fixed) =
      addLevels cfg last current (currentIndent cfg stack) ls.reverse stack := by
  induction ls with
  | nil => rw [List.map_nil, List.nil_append, go_fixed]; rfl
  | cons l ls ih =>
    rw [List.reverse_cons, addLevels_snoc, ← ih]
    simp only [List.map_cons, List.cons_append, lvl, settle.go, column_map, headD_current, levelIndent, Level.getAlignPos]
    cases alignLoop l.alignPositions l.alignIndices <;> rfl

theorem settle_eq {cfg : Config} {d : ℕ} {s : St} {p : Page} (h : Rel cfg d s p) :
    settle cfg p.levels = newStack cfg s := by
  rw [settle, h.levels, base_fixed _ _ _ _ cfg rfl, go_eq]
  rfl

theorem Rel.mono {cfg : Config} {d d' : ℕ} {s : St} {p : Page} (h : Rel cfg d s p) (hd : d ≤ d') : Rel cfg d' s p :=
  { h with fresh := fun hf => ⟨(h.fresh hf).1, Nat.le_trans (h.fresh hf).2.1 hd, (h.fresh hf).2.2⟩ }

theorem rel_newline {cfg : Config} {d : ℕ} {s : St} {p : Page} (h : Rel cfg d s p) :
    Rel cfg 0 (createNewBlock cfg s) (newline cfg p) where
  lines := by simp [newline, createNewBlock, h.lines, h.indent, h.text]
  indent := by simp only [newline, createNewBlock, settle_eq h, headD_current]
  text := rfl
  wishes := h.wishes
  levels := by simp [newline, createNewBlock, settle_eq h]
  dedenters := Nat.zero_le _
  pieces := by simp [createNewBlock]
  positions := by simp [createNewBlock]
  fresh := fun _ => ⟨rfl, Nat.le_refl _, rfl, by simp [createNewBlock]⟩
  canDedent := fun _ => rfl
  old := by
    intro b hb
    rcases List.mem_append.mp hb with hb | hb
    · exact h.old b hb
    · rw [List.mem_singleton.mp hb]; exact h.pieces

theorem rel_put {cfg : Config} {d : ℕ} {s : St} {p : Page} (h : Rel cfg d s p) {x : Str} (hx : x ≠ []) :
    Rel cfg d (put x s) { p with text := p.text ++ x } where
  lines := h.lines
  indent := h.indent
  text := by simp [put, Block.text, h.text]
  wishes := h.wishes
  levels := by
    show p.levels = _
    rw [h.levels]
    congr 1
    apply List.map_congr_left
    intro l hl
    exact (lvl_put s.cur x l (h.positions l hl)).symm
  dedenters := h.dedenters
  pieces := by
    intro y hy
    rcases List.mem_append.mp hy with hy | hy
    · exact h.pieces y hy
    · rw [List.mem_singleton.mp hy]; exact hx
  positions := by
    intro l hl kv hkv
    have := h.positions l hl kv hkv
    simp only [put, List.length_append, List.length_singleton]
    omega
  fresh := h.fresh
  canDedent := h.canDedent
  old := h.old

theorem rel_space {cfg : Config} {d : ℕ} (cs : Str) {s : St} {p : Page} (h : Rel cfg d s p) :
    Rel cfg d (spaceLoop cfg cs s) (space cfg cs p) := by
  induction cs generalizing s p with
  | nil => exact h
  | cons c cs ih =>
    rw [spaceLoop, space]
    split
    · exact ih ((rel_newline h).mono (Nat.zero_le _))
    · exact ih (rel_put h (by simp))

theorem rel_gap {cfg : Config} {d : ℕ} {s : St} {p : Page} (h : Rel cfg d s p) :
    Rel cfg d (outputSpace cfg s) (gap cfg p) := by
  rw [outputSpace, gap, h.wishes]
  have := rel_space (collapse s.whitespace) h
  exact { this with wishes := rfl }

theorem text_nil {cfg : Config} {d : ℕ} {s : St} {p : Page} (h : Rel cfg d s p) : p.text = [] ↔ s.cur.line = [] := by
  rw [h.text, Block.text]
  constructor
  · intro hf
    cases hl : s.cur.line with
    | nil => rfl
    | cons x xs =>
      rw [hl] at hf
      have := h.pieces x (by simp [hl])
      simp at hf
      exact absurd hf.1 this
  · intro hl; rw [hl]; rfl

theorem offset_length (b : Block) : b.offset b.line.length = b.text.length := by
  simp [Block.offset, Block.text, List.length_flatten]

theorem rel_head {cfg : Config} {d : ℕ} {s : St} {p : Page} (h : Rel cfg d s p) {x : Str} (hx : x ≠ []) (i : ℤ)
    (o : Option ℤ) : Rel cfg d (outputHead cfg x i o s) (step cfg p (.head x i o)) := by
  have hg := rel_gap h
  have ht := text_nil hg
  rw [outputHead.eq_def, step]
  simp only
  have key : Rel cfg d
      { outputSpace cfg s with
        canDedent := false
        cur := (match o with
          | some i => if (outputSpace cfg s).cur.line.isEmpty then { (outputSpace cfg s).cur with indent := i }
            else (outputSpace cfg s).cur
          | none => (outputSpace cfg s).cur)
        indenters := (match (outputSpace cfg s).indenters with
          | l :: ls =>
            if i ∈ l.alignIndices then l.alignChild i (outputSpace cfg s).cur.line.length :: ls else l :: ls
          | [] => []) }
      { gap cfg p with
        indent := if (gap cfg p).text = [] then o.getD (gap cfg p).indent else (gap cfg p).indent
        levels := note i (gap cfg p).text.length (gap cfg p).levels
        fresh := false } := by
    generalize outputSpace cfg s = s' at hg ht
    generalize gap cfg p = p' at hg ht
    have hcur : (match o with
          | some i => if s'.cur.line.isEmpty then { s'.cur with indent := i } else s'.cur
          | none => s'.cur) = ⟨if p'.text = [] then o.getD p'.indent else p'.indent, s'.cur.line⟩ := by
      cases o with
      | none => simp [hg.indent]
      | some k =>
        simp only [List.isEmpty_iff, ht, Option.getD_some, hg.indent]
        split
        · rfl
        · rfl
    rw [hcur]
    refine ⟨hg.lines, rfl, hg.text, hg.wishes, ?_, hg.dedenters, hg.pieces, ?_, by simp, by simp, hg.old⟩
    · show note i p'.text.length p'.levels = _
      rw [hg.levels]
      cases hi : s'.indenters with
      | nil =>
        simp only [List.map_nil, List.nil_append]
        cases s'.stack.drop s'.dedenters <;> rfl
      | cons l ls =>
        simp only [List.map_cons, List.cons_append, lvl, note]
        split
        · simp only [List.map_cons, List.cons_append, lvl, Level.alignChild, set_map]
          rw [show Block.offset ⟨if p'.text = [] then o.getD p'.indent else p'.indent, s'.cur.line⟩ s'.cur.line.length
            = p'.text.length by rw [hg.text]; exact offset_length s'.cur]
          rfl
        · rfl
    · intro l hl kv hkv
      show kv.2 ≤ s'.cur.line.length
      cases hi : s'.indenters with
      | nil => rw [hi] at hl; simp at hl
      | cons m ms =>
        rw [hi] at hl
        simp only at hl
        have hpos := hg.positions
        rw [hi] at hpos
        split at hl
        · rcases List.mem_cons.mp hl with rfl | hl
          · rcases mem_set hkv with hkv | hkv
            · exact hpos m (by simp) kv hkv
            · omega
          · exact hpos l (by simp [hl]) kv hkv
        · exact hpos l hl kv hkv
  exact rel_put key hx

theorem rel_tail {cfg : Config} {s : St} {p : Page} (h : Rel cfg 1 s p) {x : Str} (hx : x ≠ []) :
    Rel cfg 0 (outputTail cfg x s) (step cfg p (.tail x)) := by
  have hg := rel_gap h
  rw [outputTail, step]
  simp only
  generalize outputSpace cfg s = s' at hg
  generalize gap cfg p = p' at hg
  have hb : base cfg.startIndent p'.levels = currentIndent cfg (s'.stack.drop s'.dedenters) := by
    rw [hg.levels, base_fixed _ _ _ _ cfg rfl]
  split
  · rename_i hc
    simp only [Bool.and_eq_true, bne_iff_ne, ne_eq] at hc
    have hf := hg.canDedent hc.1
    obtain ⟨h1, h2, h3, h4⟩ := hg.fresh hf
    have hd1 : s'.dedenters = 1 := by omega
    have hdrop : s'.stack.eraseIdx (s'.dedenters - 1) = s'.stack.drop s'.dedenters := by
      rw [hd1]; cases s'.stack <;> rfl
    have key : Rel cfg 0
        { s' with
          stack := s'.stack.eraseIdx (s'.dedenters - 1)
          dedenters := 0
          cur := { s'.cur with indent := currentIndent cfg (s'.stack.eraseIdx (s'.dedenters - 1)) }
          failed := s'.failed || decide (s'.stack.length < s'.dedenters) }
        { p' with indent := if p'.fresh then base cfg.startIndent p'.levels else p'.indent } := by
      refine ⟨hg.lines, ?_, hg.text, hg.wishes, ?_, Nat.zero_le _, hg.pieces, hg.positions, ?_, hg.canDedent, hg.old⟩
      · simp only [hf, if_true, hb, hdrop]
      · simp only [hg.levels, h1, hdrop, List.map_nil, List.drop_zero]
      · intro _
        exact ⟨h1, Nat.le_refl _, rfl, fun hcd => by
          have hcd' : s'.canDedent = false := hcd
          rw [hc.1] at hcd'; cases hcd'⟩
    exact rel_put key hx
  · rename_i hc
    have hfr : p'.fresh = true → s'.dedenters = 0 := by
      intro hf
      obtain ⟨h1, h2, h3, h4⟩ := hg.fresh hf
      cases hcd : s'.canDedent with
      | true =>
        rw [hcd] at hc
        simpa using hc
      | false =>
        have := hg.dedenters
        rw [h4 hcd] at this
        simpa using this
    have hi : (if p'.fresh then base cfg.startIndent p'.levels else p'.indent) = p'.indent := by
      split
      · rename_i hf
        rw [hb, hfr hf, hg.indent, (hg.fresh hf).2.2.1, List.drop_zero]
      · rfl
    rw [hi]
    exact rel_put { hg with fresh := fun hf => ⟨(hg.fresh hf).1, by rw [hfr hf]; exact Nat.le_refl 0, (hg.fresh hf).2.2⟩ } hx

theorem rel_wish {cfg : Config} {d : ℕ} {s : St} {p : Page} (h : Rel cfg d s p) (w : Str) :
    Rel cfg d (addWhitespace w s) (step cfg p (.wish w)) :=
  { h with wishes := by simp [step, addWhitespace, h.wishes] }

theorem rel_enter {cfg : Config} {d : ℕ} {s : St} {p : Page} (h : Rel cfg d s p) (e : Elem) (hf : p.fresh = false) :
    Rel cfg d (enterIndent e s) (step cfg p (.enter e.align)) :=
  { h with
    levels := by simp [step, enterIndent, h.levels, lvl]
    positions := by
      intro l hl kv hkv
      rcases List.mem_cons.mp hl with rfl | hl
      · simp at hkv
      · exact h.positions l hl kv hkv
    fresh := fun h' => by
      have : p.fresh = true := h'
      rw [hf] at this; cases this }

theorem rel_leave {cfg : Config} {s : St} {p : Page} (h : Rel cfg 0 s p) (hl : p.levels ≠ []) :
    Rel cfg 1 (leaveIndent s) (step cfg p .leave) := by
  rw [leaveIndent]
  cases hi : s.indenters with
  | cons l ls =>
    have hf : p.fresh = false := by
      cases hf : p.fresh with
      | false => rfl
      | true => have := (h.fresh hf).1; rw [hi] at this; cases this
    refine { h.mono (Nat.zero_le 1) with levels := ?_, positions := ?_, fresh := ?_ }
    · simp [step, h.levels, hi]
    · intro m hm; exact h.positions m (by rw [hi]; simp [hm])
    · intro hf'
      have : p.fresh = true := hf'
      rw [hf] at this; cases this
  | nil =>
    have hlev : p.levels = (s.stack.drop s.dedenters).map .fixed := by simpa [hi] using h.levels
    have hlt : s.dedenters < s.stack.length := by
      rw [hlev] at hl
      simp at hl
      exact hl
    refine { h.mono (Nat.zero_le 1) with levels := ?_, dedenters := hlt, positions := ?_, fresh := ?_ }
    · simp [step, hlev]
    · intro m hm
      simp at hm
    · intro hf
      have hf' : p.fresh = true := hf
      obtain ⟨h1, h2, h3⟩ := h.fresh hf'
      exact ⟨rfl, by simp only; omega, h3⟩

/-! ### The number of open levels -/

theorem go_length (cfg : Config) (b : ℤ) (ls : List Lvl) : (settle.go cfg b ls).length = ls.length := by
  induction ls with
  | nil => rfl
  | cons l ls ih => cases l <;> simp [settle.go, ih]

theorem space_length (cfg : Config) (cs : Str) (p : Page) : (space cfg cs p).levels.length = p.levels.length := by
  induction cs generalizing p with
  | nil => rfl
  | cons c cs ih =>
    rw [space, ih]
    split
    · simp [newline, settle, go_length]
    · rfl

theorem note_length (i : ℤ) (c : ℕ) (ls : List Lvl) : (note i c ls).length = ls.length := by
  cases ls with
  | nil => rfl
  | cons l ls =>
    cases l with
    | fixed _ => rfl
    | opened _ _ => rw [note]; split <;> rfl

theorem step_wish_length (cfg : Config) (p : Page) (w : Str) : (step cfg p (.wish w)).levels.length = p.levels.length := rfl

theorem step_head_length (cfg : Config) (p : Page) (x : Str) (i : ℤ) (o : Option ℤ) :
    (step cfg p (.head x i o)).levels.length = p.levels.length := by
  simp [step, note_length, gap, space_length]

theorem step_tail_length (cfg : Config) (p : Page) (x : Str) : (step cfg p (.tail x)).levels.length = p.levels.length := by
  simp [step, gap, space_length]

mutual

theorem events_length (cc : Concat) (cfg : Config) (i : ℤ) : ∀ (t : Tree Elem) (p : Page),
    ((events cc i t).foldl (step cfg) p).levels.length = p.levels.length
  | .node e cs, p => by
    have hk := kids_length cc cfg e none 0 cs
    rw [events]
    simp only [List.foldl_append]
    by_cases he : e.indent = true
    · simp only [he, if_true]
      by_cases ht : e.kind = .block ∧ e.tail ≠ []
      · simp only [if_pos ht, List.foldl_cons, List.foldl_nil, step_wish_length, step_tail_length]
        rw [show ∀ q : Page, (step cfg q .leave).levels.length = q.levels.length - 1 by intro q; simp [step], hk]
        rw [show ∀ q : Page, (step cfg q (.enter e.align)).levels.length = q.levels.length + 1 by intro q; simp [step]]
        split
        · simp only [List.foldl_cons, step_head_length]
          split <;> simp [step_head_length, step_wish_length]
        · rfl
      · simp only [if_neg ht, List.foldl_cons, List.foldl_nil, step_wish_length]
        rw [show ∀ q : Page, (step cfg q .leave).levels.length = q.levels.length - 1 by intro q; simp [step], hk]
        rw [show ∀ q : Page, (step cfg q (.enter e.align)).levels.length = q.levels.length + 1 by intro q; simp [step]]
        split
        · simp only [List.foldl_cons]
          split <;> simp [step_head_length, step_wish_length]
        · rfl
    · simp only [he]
      by_cases ht : e.kind = .block ∧ e.tail ≠ []
      · simp only [if_pos ht, List.foldl_cons, List.foldl_nil, step_wish_length, step_tail_length]
        simp only [Bool.false_eq_true, if_false, List.foldl_nil, hk]
        split
        · simp only [List.foldl_cons]
          split <;> simp [step_head_length, step_wish_length]
        · rfl
      · simp only [if_neg ht, List.foldl_cons, List.foldl_nil, step_wish_length]
        simp only [Bool.false_eq_true, if_false, List.foldl_nil, hk]
        split
        · simp only [List.foldl_cons]
          split <;> simp [step_head_length, step_wish_length]
        · rfl

theorem kids_length (cc : Concat) (cfg : Config) (e : Elem) (prev : Option (Tree Elem)) (i : ℤ) :
    ∀ (cs : List (Tree Elem)) (p : Page),
    ((events.kids cc e prev i cs).foldl (step cfg) p).levels.length = p.levels.length
  | [], p => rfl
  | m :: ms, p => by
    rw [events.kids, List.foldl_append, List.foldl_append, kids_length cc cfg e (some m) (i + 1) ms, events_length cc cfg i m]
    cases prev <;> rfl

end

/-! ### The whole tree -/

mutual

theorem rel_node (cc : Concat) (cfg : Config) (i : ℤ) : ∀ (t : Tree Elem) (s : St) (p : Page),
    Enclosed t → Rel cfg 0 s p → Rel cfg 0 (outputNode cc cfg i t s) ((events cc i t).foldl (step cfg) p)
  | .node e cs, s, p, hn, h => by
    rw [Enclosed] at hn
    obtain ⟨hi, hcs⟩ := hn
    have hT : (e.kind = .block ∧ e.tail ≠ []) ↔ e.hasTail = true := by
      simp [Elem.hasTail]
    rw [outputNode, events]
    simp only [List.foldl_append, List.foldl_cons, List.foldl_nil]
    -- before the children
    have hw := rel_wish h e.sp.before
    have hh : Rel cfg 0
        (if e.kind ≠ .plain ∧ e.head ≠ [] then
          if e.hasTail || !cs.isEmpty then
            addWhitespace e.sp.afterHead (outputHead cfg e.head i e.override (addWhitespace e.sp.before s))
          else outputHead cfg e.head i e.override (addWhitespace e.sp.before s)
        else addWhitespace e.sp.before s)
        ((if e.kind ≠ .plain ∧ e.head ≠ [] then
          .head e.head i e.override ::
            (if (e.kind = .block ∧ e.tail ≠ []) ∨ cs ≠ [] then [.wish e.sp.afterHead] else [])
        else []).foldl (step cfg) (step cfg p (.wish e.sp.before))) := by
      by_cases hH : e.kind ≠ .plain ∧ e.head ≠ []
      · rw [if_pos hH, if_pos hH, List.foldl_cons]
        have h2 := rel_head hw hH.2 i e.override
        by_cases hA : (e.kind = .block ∧ e.tail ≠ []) ∨ cs ≠ []
        · rw [if_pos hA, if_pos (by rw [hT] at hA; simpa using hA)]
          exact rel_wish h2 _
        · rw [if_neg hA, if_neg (by rw [hT] at hA; simpa using hA)]
          exact h2
      · rw [if_neg hH, if_neg hH]
        exact hw
    have hstart : nodeStart cfg e i (!cs.isEmpty) s =
        (if e.indent then enterIndent e else id)
        (if e.kind ≠ .plain ∧ e.head ≠ [] then
          if e.hasTail || !cs.isEmpty then
            addWhitespace e.sp.afterHead (outputHead cfg e.head i e.override (addWhitespace e.sp.before s))
          else outputHead cfg e.head i e.override (addWhitespace e.sp.before s)
        else addWhitespace e.sp.before s) := by
      rw [nodeStart]
      split <;> rfl
    have hfr : e.indent = true → ((if e.kind ≠ .plain ∧ e.head ≠ [] then
          .head e.head i e.override ::
            (if (e.kind = .block ∧ e.tail ≠ []) ∨ cs ≠ [] then [.wish e.sp.afterHead] else [])
        else []).foldl (step cfg) (step cfg p (.wish e.sp.before))).fresh = false := by
      intro he
      obtain ⟨hb, hhd, htl⟩ := hi he
      rw [if_pos ⟨by rw [hb]; simp, hhd⟩, if_pos (.inl ⟨hb, htl⟩)]
      rfl
    rw [hstart]
    generalize (if e.kind ≠ .plain ∧ e.head ≠ [] then
          if e.hasTail || !cs.isEmpty then
            addWhitespace e.sp.afterHead (outputHead cfg e.head i e.override (addWhitespace e.sp.before s))
          else outputHead cfg e.head i e.override (addWhitespace e.sp.before s)
        else addWhitespace e.sp.before s) = X at hh hstart ⊢
    generalize ((if e.kind ≠ .plain ∧ e.head ≠ [] then
          .head e.head i e.override ::
            (if (e.kind = .block ∧ e.tail ≠ []) ∨ cs ≠ [] then [.wish e.sp.afterHead] else [])
        else []).foldl (step cfg) (step cfg p (.wish e.sp.before))) = Y at hh hfr ⊢
    by_cases he : e.indent = true
    · obtain ⟨hb, hhd, htl⟩ := hi he
      have ht : e.kind = .block ∧ e.tail ≠ [] := ⟨hb, htl⟩
      have h3 := rel_enter hh e (hfr he)
      simp only [he, if_true, if_pos ht, List.foldl_cons, List.foldl_nil]
      have h4 := rel_kids cc cfg e none 0 cs _ _ hcs h3
      rw [nodeEnd]
      simp only [he, if_true, hT.mp ht]
      refine rel_wish (rel_tail (rel_wish (rel_leave h4 ?_) _) htl) _
      intro h0
      have hl := kids_length cc cfg e none 0 cs
      have := congrArg List.length h0
      rw [hl] at this
      simp [step] at this
    · simp only [he, Bool.false_eq_true, if_false, List.foldl_nil, id]
      have h4 := rel_kids cc cfg e none 0 cs _ _ hcs hh
      rw [nodeEnd]
      simp only [he, Bool.false_eq_true, if_false]
      by_cases ht : e.kind = .block ∧ e.tail ≠ []
      · simp only [if_pos ht, hT.mp ht, if_true, List.foldl_cons, List.foldl_nil]
        exact rel_wish (rel_tail ((rel_wish h4 _).mono (Nat.zero_le 1)) ht.2) _
      · have hf : ¬ e.hasTail = true := fun hc => ht (hT.mpr hc)
        simp only [if_neg ht, hf, Bool.false_eq_true, if_false, List.foldl_nil]
        exact rel_wish h4 _

theorem rel_kids (cc : Concat) (cfg : Config) (e : Elem) (prev : Option (Tree Elem)) (i : ℤ) :
    ∀ (cs : List (Tree Elem)) (s : St) (p : Page), Enclosed.all cs → Rel cfg 0 s p →
    Rel cfg 0 (outputNode.kids cc cfg e prev i cs s) ((events.kids cc e prev i cs).foldl (step cfg) p)
  | [], s, p, _, h => h
  | m :: ms, s, p, hn, h => by
    rw [Enclosed.all] at hn
    rw [outputNode.kids, events.kids, List.foldl_append, List.foldl_append]
    refine rel_kids cc cfg e (some m) (i + 1) ms _ _ hn.2 (rel_node cc cfg i m _ _ hn.1 ?_)
    cases prev with
    | none => exact h
    | some n => exact rel_wish h _

end

theorem rel_initial (cfg : Config) : Rel cfg 0 (initial cfg) (blank cfg) := by
  refine ⟨rfl, rfl, rfl, rfl, rfl, Nat.zero_le _, by simp [initial], by simp [initial], by simp [blank], by simp [initial], by simp [initial]⟩

/-- The blocks of the output, before leading whitespace is stripped, are the lines of the layout. -/
theorem layout_eq (cc : Concat) (cfg : Config) (t : Tree Elem) (ht : Enclosed t) :
    layout cc cfg t =
      (((outputNode cc cfg (-1) t (initial cfg)).done ++ [(outputNode cc cfg (-1) t (initial cfg)).cur]).map
        fun b => (b.indent, b.text)) := by
  have h := rel_node cc cfg (-1) t _ _ ht (rel_initial cfg)
  rw [layout]
  simp [h.lines, h.indent, h.text]

end Quickly.Indent
