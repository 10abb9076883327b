import Verif.Indent.Layout2
import Verif.Indent.Props

/-!
# Indents without alignment

Without alignment a line has an indent that depends on the number of open levels at its
begin only. Here a page is described that only counts levels.
-/

namespace Quickly.Indent.Layout

open Quickly.Node Quickly.Text

/-- A page that counts levels: the complete lines with their depth, the depth and the text of
the current line, the number of open levels, the wishes since the last text, and whether there were
only tail texts in the current line since it began. -/
structure Count where
  lines : List (ℕ × Str)
  depth : ℕ
  text : Str
  levels : ℕ
  wishes : List Str
  fresh : Bool

/-- Whitespace: a line that begins has the depth of the number of open levels. -/
def Count.space : Str → Count → Count
  | [], p => p
  | c :: cs, p =>
    Count.space cs
      (if c = '\n' then
        { p with lines := p.lines ++ [(p.depth, p.text)], depth := p.levels, text := [], fresh := true }
      else { p with text := p.text ++ [c] })

/-- An event. A tail text at the begin of a line makes its depth the number of levels then open. -/
def Count.step (p : Count) : Event → Count
  | .wish w => { p with wishes := p.wishes ++ [w] }
  | .head x _ _ =>
    let p := Count.space (collapse p.wishes) p
    { p with text := p.text ++ x, fresh := false, wishes := [] }
  | .tail x =>
    let p := Count.space (collapse p.wishes) p
    { p with depth := if p.fresh then p.levels else p.depth, text := p.text ++ x, wishes := [] }
  | .enter _ => { p with levels := p.levels + 1 }
  | .leave => { p with levels := p.levels - 1 }

/-- All lines, with their depth. -/
def depths (cc : Concat) (t : Tree Elem) : List (ℕ × Str) :=
  let p := (events cc (-1) t).foldl Count.step ⟨[], 0, [], 0, [], false⟩
  p.lines ++ [(p.depth, p.text)]

/-- Nothing is aligned: there are no elements that override the indent, and no elements that want to align
children, or alignment is disabled. -/
def Unaligned (cfg : Config) : Tree Elem → Prop
  | .node e cs => (e.align = [] ∨ cfg.maxAlignIndent < 0) ∧ e.override = none ∧ all cs
where
  /-- The children. -/
  all : List (Tree Elem) → Prop
    | [] => True
    | c :: cs => Unaligned cfg c ∧ all cs

/-- The indent at a depth. -/
def at_ (cfg : Config) (n : ℕ) : ℤ := cfg.startIndent + cfg.indentWidth * n

/-- The levels are those of an unaligned page. -/
def Plain (cfg : Config) : List Lvl → Prop
  | [] => True
  | .fixed i :: ls => i = at_ cfg (ls.length + 1) ∧ Plain cfg ls ∧ ∀ l ∈ ls, ∃ j, l = .fixed j
  | .opened align _ :: ls => (align = [] ∨ cfg.maxAlignIndent < 0) ∧ Plain cfg ls

theorem go_plain (cfg : Config) (b : ℤ) (ls : List Lvl) (h : Plain cfg ls) :
    (settle.go cfg b ls).headD cfg.startIndent = at_ cfg ls.length ∧
      Plain cfg ((settle.go cfg b ls).map .fixed) := by
  induction ls with
  | nil => exact ⟨by simp [settle.go, at_], trivial⟩
  | cons l ls ih =>
    have hall : ∀ l ∈ ((settle.go cfg b ls).map Lvl.fixed), ∃ j, l = .fixed j := by
      intro l hl
      obtain ⟨j, -, rfl⟩ := List.mem_map.mp hl
      exact ⟨j, rfl⟩
    cases l with
    | fixed i =>
      rw [Plain] at h
      obtain ⟨h1, h2, -⟩ := h
      refine ⟨h1, ?_⟩
      rw [settle.go, List.map_cons, Plain, List.length_map, go_length]
      exact ⟨h1, (ih h2).2, hall⟩
    | opened align cols =>
      rw [Plain] at h
      obtain ⟨h1, h2⟩ := h
      have hd : (match column cols align with
        | some c => if (c : ℤ) ≤ cfg.maxAlignIndent then b + c
            else (settle.go cfg b ls).headD cfg.startIndent + cfg.indentWidth
        | none => (settle.go cfg b ls).headD cfg.startIndent + cfg.indentWidth) = at_ cfg (ls.length + 1) := by
        have e : (settle.go cfg b ls).headD cfg.startIndent + cfg.indentWidth = at_ cfg (ls.length + 1) := by
          rw [(ih h2).1, at_, at_]
          push_cast
          rw [Int.mul_add, Int.mul_one, Int.add_assoc]
        rw [e]
        rcases h1 with rfl | h1
        · rfl
        · split
          · rw [if_neg (by omega)]
          · rfl
      refine ⟨?_, ?_⟩
      · rw [settle.go, List.headD_cons]
        exact hd
      · rw [settle.go, List.map_cons, Plain, List.length_map, go_length]
        exact ⟨hd, (ih h2).2, hall⟩

theorem base_plain (cfg : Config) (ls : List Lvl) (h : Plain cfg ls) (hf : ∀ l ∈ ls, ∃ j, l = .fixed j) :
    base cfg.startIndent ls = at_ cfg ls.length := by
  cases ls with
  | nil => simp [base, at_]
  | cons l ls =>
    obtain ⟨j, rfl⟩ := hf l (by simp)
    rw [Plain] at h
    exact h.1

/-- A page and the page that counts. -/
structure Same (cfg : Config) (p : Page) (q : Count) : Prop where
  lines : p.lines = q.lines.map fun l => (at_ cfg l.1, l.2)
  indent : p.indent = at_ cfg q.depth
  text : p.text = q.text
  levels : p.levels.length = q.levels
  plain : Plain cfg p.levels
  wishes : p.wishes = q.wishes
  fresh : p.fresh = q.fresh
  fixed : p.fresh = true → ∀ l ∈ p.levels, ∃ j, l = .fixed j

theorem same_space {cfg : Config} (cs : Str) {p : Page} {q : Count} (h : Same cfg p q) :
    Same cfg (space cfg cs p) (Count.space cs q) := by
  induction cs generalizing p q with
  | nil => exact h
  | cons c cs ih =>
    rw [space, Count.space]
    split
    · have g := go_plain cfg (base cfg.startIndent p.levels) p.levels h.plain
      refine ih ⟨?_, ?_, rfl, ?_, ?_, h.wishes, rfl, ?_⟩
      · simp [newline, h.lines, h.indent, h.text]
      · rw [← h.levels]; exact g.1
      · simp [newline, settle, go_length, h.levels]
      · exact g.2
      · intro _ l hl
        obtain ⟨j, -, rfl⟩ := List.mem_map.mp hl
        exact ⟨j, rfl⟩
    · exact ih { h with text := by simp [h.text] }

/-- An event without alignment. -/
def Event.Unaligned (cfg : Config) : Event → Prop
  | .head _ _ o => o = none
  | .enter a => a = [] ∨ cfg.maxAlignIndent < 0
  | _ => True

theorem note_plain (cfg : Config) (i : ℤ) (c : ℕ) (ls : List Lvl) (h : Plain cfg ls) : Plain cfg (note i c ls) := by
  cases ls with
  | nil => exact h
  | cons l ls =>
    cases l with
    | fixed _ => exact h
    | opened a cols =>
      rw [note]
      split
      · exact h
      · exact h

theorem same_step {cfg : Config} {p : Page} {q : Count} (h : Same cfg p q) (e : Event) (he : e.Unaligned cfg)
    (hf : ∀ a, e = .enter a → p.fresh = false) :
    Same cfg (step cfg p e) (q.step e) := by
  cases e with
  | wish w => exact { h with wishes := by simp [step, Count.step, h.wishes] }
  | head x i o =>
    have he' : o = none := he
    subst he'
    have g := same_space (collapse p.wishes) h
    rw [step, Count.step, gap, ← h.wishes]
    refine ⟨g.lines, ?_, ?_, ?_, note_plain cfg _ _ _ g.plain, rfl, rfl, by simp⟩
    · simp [g.indent]
    · simp [g.text]
    · simp [note_length, g.levels]
  | tail x =>
    have g := same_space (collapse p.wishes) h
    rw [step, Count.step, gap, ← h.wishes]
    refine ⟨g.lines, ?_, ?_, g.levels, g.plain, rfl, g.fresh, g.fixed⟩
    · simp only [← g.fresh]
      split
      · rename_i hfr
        rw [base_plain cfg _ g.plain (g.fixed hfr), g.levels]
      · exact g.indent
    · simp [g.text]
  | enter a =>
    refine { h with levels := by simp [step, Count.step, h.levels], plain := ⟨he, h.plain⟩, fixed := ?_ }
    intro hfr
    have : p.fresh = true := hfr
    rw [hf a rfl] at this; cases this
  | leave =>
    refine { h with levels := by simp [step, Count.step, h.levels], plain := ?_, fixed := ?_ }
    · have := h.plain
      show Plain cfg p.levels.tail
      cases hl : p.levels with
      | nil => trivial
      | cons l ls =>
        rw [hl] at this
        cases l with
        | fixed _ => exact this.2.1
        | opened _ _ => exact this.2
    · intro hfr l hl
      exact h.fixed hfr l (List.mem_of_mem_tail hl)

mutual

theorem same_node (cc : Concat) (cfg : Config) (i : ℤ) : ∀ (t : Tree Elem) (p : Page) (q : Count),
    Enclosed t → Unaligned cfg t → Same cfg p q →
    Same cfg ((events cc i t).foldl (step cfg) p) ((events cc i t).foldl Count.step q)
  | .node e cs, p, q, hn, hu, h => by
    rw [Enclosed] at hn
    rw [Unaligned] at hu
    obtain ⟨hi, hcs⟩ := hn
    obtain ⟨hal, hov, hus⟩ := hu
    rw [events]
    simp only [List.foldl_append, List.foldl_cons, List.foldl_nil]
    have h1 := same_step h (.wish e.sp.before) trivial (by simp)
    have h2 : Same cfg
        ((if e.kind ≠ .plain ∧ e.head ≠ [] then
          .head e.head i e.override ::
            (if (e.kind = .block ∧ e.tail ≠ []) ∨ cs ≠ [] then [.wish e.sp.afterHead] else [])
        else []).foldl (step cfg) (step cfg p (.wish e.sp.before)))
        ((if e.kind ≠ .plain ∧ e.head ≠ [] then
          .head e.head i e.override ::
            (if (e.kind = .block ∧ e.tail ≠ []) ∨ cs ≠ [] then [.wish e.sp.afterHead] else [])
        else []).foldl Count.step (q.step (.wish e.sp.before))) := by
      split
      · rw [List.foldl_cons, List.foldl_cons]
        have h2 := same_step h1 (.head e.head i e.override) hov (by simp)
        split
        · exact same_step h2 (.wish e.sp.afterHead) trivial (by simp)
        · exact h2
      · exact h1
    have hfr : e.indent = true →
        ((if e.kind ≠ .plain ∧ e.head ≠ [] then
          .head e.head i e.override ::
            (if (e.kind = .block ∧ e.tail ≠ []) ∨ cs ≠ [] then [.wish e.sp.afterHead] else [])
        else []).foldl (step cfg) (step cfg p (.wish e.sp.before))).fresh = false := by
      intro he
      obtain ⟨hb, hhd, htl⟩ := hi he
      rw [if_pos ⟨by rw [hb]; simp, hhd⟩, if_pos (.inl ⟨hb, htl⟩)]
      rfl
    generalize ((if e.kind ≠ .plain ∧ e.head ≠ [] then
          .head e.head i e.override ::
            (if (e.kind = .block ∧ e.tail ≠ []) ∨ cs ≠ [] then [.wish e.sp.afterHead] else [])
        else []).foldl (step cfg) (step cfg p (.wish e.sp.before))) = X at h2 hfr ⊢
    generalize ((if e.kind ≠ .plain ∧ e.head ≠ [] then
          .head e.head i e.override ::
            (if (e.kind = .block ∧ e.tail ≠ []) ∨ cs ≠ [] then [.wish e.sp.afterHead] else [])
        else []).foldl Count.step (q.step (.wish e.sp.before))) = Y at h2 ⊢
    refine same_step ?_ (.wish e.sp.after) trivial (by simp)
    have h5 : Same cfg
        ((if e.indent then [Event.leave] else []).foldl (step cfg)
          ((events.kids cc e none 0 cs).foldl (step cfg)
            ((if e.indent then [Event.enter e.align] else []).foldl (step cfg) X)))
        ((if e.indent then [Event.leave] else []).foldl Count.step
          ((events.kids cc e none 0 cs).foldl Count.step
            ((if e.indent then [Event.enter e.align] else []).foldl Count.step Y))) := by
      by_cases he : e.indent = true
      · simp only [he, if_true, List.foldl_cons, List.foldl_nil]
        refine same_step ?_ .leave trivial (by simp)
        exact same_kids cc cfg e none 0 cs _ _ hcs hus
          (same_step h2 (.enter e.align) hal fun _ _ => hfr he)
      · simp only [he, Bool.false_eq_true, if_false, List.foldl_nil]
        exact same_kids cc cfg e none 0 cs _ _ hcs hus h2
    by_cases ht : e.kind = .block ∧ e.tail ≠ []
    · rw [if_pos ht]
      simp only [List.foldl_cons, List.foldl_nil]
      exact same_step (same_step h5 (.wish e.sp.beforeTail) trivial (by simp)) (.tail e.tail) trivial (by simp)
    · rw [if_neg ht]
      exact h5

theorem same_kids (cc : Concat) (cfg : Config) (e : Elem) (prev : Option (Tree Elem)) (i : ℤ) :
    ∀ (cs : List (Tree Elem)) (p : Page) (q : Count), Enclosed.all cs → Unaligned.all cfg cs → Same cfg p q →
    Same cfg ((events.kids cc e prev i cs).foldl (step cfg) p) ((events.kids cc e prev i cs).foldl Count.step q)
  | [], p, q, _, _, h => h
  | m :: ms, p, q, hn, hu, h => by
    rw [Enclosed.all] at hn
    rw [Unaligned.all] at hu
    simp only [events.kids, List.foldl_append]
    refine same_kids cc cfg e (some m) (i + 1) ms _ _ hn.2 hu.2 (same_node cc cfg i m _ _ hn.1 hu.1 ?_)
    cases prev with
    | none => exact h
    | some n => exact same_step h (.wish (cc e n m)) trivial (by simp)

end

/-- Without alignment, the indents are given by the depths. -/
theorem layout_depths (cc : Concat) (cfg : Config) (t : Tree Elem) (ht : Enclosed t) (hu : Unaligned cfg t) :
    layout cc cfg t = (depths cc t).map fun l => (cfg.startIndent + cfg.indentWidth * l.1, l.2) := by
  have h := same_node cc cfg (-1) t (blank cfg) ⟨[], 0, [], 0, [], false⟩ ht hu
    ⟨rfl, by simp [blank, at_], rfl, rfl, trivial, rfl, rfl, by simp [blank]⟩
  rw [layout, depths]
  simp [h.lines, h.indent, h.text, at_]

end Quickly.Indent.Layout
