import Verif.Indent.Spec

/-!
# How indented text is laid out

A plain description of the layout of indented text. The tree is read as a sequence of events.
There is one list of open levels; a level that was opened on the current line has no indent yet,
it gets one when a new line begins.
-/

namespace Quickly.Indent.Layout

open Quickly.Node Quickly.Text

/-- What happens when a tree is written. -/
inductive Event
  /-- wished whitespace -/
  | wish (w : Str)
  /-- the head text of the node with this index in its parent, and the indent it wants
  if it is the first on a line -/
  | head (text : Str) (index : ℤ) (override : Option ℤ)
  /-- the tail text of a node -/
  | tail (text : Str)
  /-- the children of a node that indents them begin; new lines may align with
  one of the children that have these indices -/
  | enter (align : List ℤ)
  /-- they end -/
  | leave

/-- The wish between a child and the previous one, if there is one. -/
def between (cc : Concat) (e : Elem) (prev : Option (Tree Elem)) (m : Tree Elem) : List Event :=
  match prev with
  | some n => [.wish (cc e n m)]
  | none => []

/-- The events of a tree; `index` is the index of the node in its parent. -/
def events (cc : Concat) (index : ℤ) : Tree Elem → List Event
  | .node e cs =>
    [.wish e.sp.before]
    ++ (if e.kind ≠ .plain ∧ e.head ≠ [] then
          .head e.head index e.override ::
            (if (e.kind = .block ∧ e.tail ≠ []) ∨ cs ≠ [] then [.wish e.sp.afterHead] else [])
        else [])
    ++ (if e.indent then [.enter e.align] else [])
    ++ kids e none 0 cs
    ++ (if e.indent then [.leave] else [])
    ++ (if e.kind = .block ∧ e.tail ≠ [] then [.wish e.sp.beforeTail, .tail e.tail] else [])
    ++ [.wish e.sp.after]
where
  /-- The children. -/
  kids (e : Elem) (prev : Option (Tree Elem)) (i : ℤ) : List (Tree Elem) → List Event
    | [] => []
    | m :: ms => between cc e prev m ++ events cc i m ++ kids e (some m) (i + 1) ms

/-- An open level: with an indent, or opened on the current line, with the columns of the
children that new lines may align with (counted from the first text of the line). -/
inductive Lvl
  | fixed (indent : ℤ)
  | opened (align : List ℤ) (cols : PyDict ℤ ℕ)

/-- The page: the lines that are complete, with their indent; the indent and the text of
the current line; the open levels, the innermost first; the wishes since the last text; and
whether there were only tail texts in the current line since it began. -/
structure Page where
  lines : List (ℤ × Str)
  indent : ℤ
  text : Str
  levels : List Lvl
  wishes : List Str
  fresh : Bool

/-- The indent of the innermost level that has one. -/
def base (start : ℤ) : List Lvl → ℤ
  | [] => start
  | .fixed i :: _ => i
  | .opened _ _ :: ls => base start ls

/-- The column to align with: that of the first of the children that is there. -/
def column (cols : PyDict ℤ ℕ) : List ℤ → Option ℕ
  | [] => none
  | i :: is => match cols.get i with
    | some c => some c
    | none => column cols is

/-- The indents of the levels, when a new line begins: a level opened on the line that ends aligns
with a column, if that is not too far; otherwise it is `indentWidth` deeper than the level around it. -/
def settle (cfg : Config) (levels : List Lvl) : List ℤ :=
  go (base cfg.startIndent levels) levels
where
  /-- With the indent of the line that ends. -/
  go (b : ℤ) : List Lvl → List ℤ
    | [] => []
    | .fixed i :: ls => i :: go b ls
    | .opened align cols :: ls =>
      let deeper := (go b ls).headD cfg.startIndent + cfg.indentWidth
      (match column cols align with
        | some c => if (c : ℤ) ≤ cfg.maxAlignIndent then b + c else deeper
        | none => deeper) :: go b ls

/-- A new line. -/
def newline (cfg : Config) (p : Page) : Page :=
  let indents := settle cfg p.levels
  { p with
    lines := p.lines ++ [(p.indent, p.text)]
    indent := indents.headD cfg.startIndent
    text := []
    levels := indents.map .fixed
    fresh := true }

/-- Whitespace. -/
def space (cfg : Config) : Str → Page → Page
  | [], p => p
  | c :: cs, p => space cfg cs (if c = '\n' then newline cfg p else { p with text := p.text ++ [c] })

/-- The most important of the wishes. -/
def gap (cfg : Config) (p : Page) : Page := { space cfg (collapse p.wishes) p with wishes := [] }

/-- A head text is noted by the innermost level, if that was opened on this line and
may align with it. -/
def note (index : ℤ) (column : ℕ) : List Lvl → List Lvl
  | .opened align cols :: ls =>
    if index ∈ align then .opened align (cols.set index column) :: ls else .opened align cols :: ls
  | ls => ls

/-- An event. -/
def step (cfg : Config) (p : Page) : Event → Page
  | .wish w => { p with wishes := p.wishes ++ [w] }
  | .head x index override =>
    let p := gap cfg p
    { p with
      indent := if p.text = [] then override.getD p.indent else p.indent
      levels := note index p.text.length p.levels
      text := p.text ++ x
      fresh := false }
  | .tail x =>
    let p := gap cfg p
    { p with
      indent := if p.fresh then base cfg.startIndent p.levels else p.indent
      text := p.text ++ x }
  | .enter align => { p with levels := .opened align [] :: p.levels }
  | .leave => { p with levels := p.levels.tail }

/-- The empty page. -/
def blank (cfg : Config) : Page := ⟨[], cfg.startIndent, [], [], [], false⟩

/-- All lines. -/
def layout (cc : Concat) (cfg : Config) (t : Tree Elem) : List (ℤ × Str) :=
  let p := (events cc (-1) t).foldl (step cfg) (blank cfg)
  p.lines ++ [(p.indent, p.text)]

/-- Every element that indents its children has a head and a tail text. -/
def Enclosed : Tree Elem → Prop
  | .node e cs => (e.indent = true → e.kind = .block ∧ e.head ≠ [] ∧ e.tail ≠ []) ∧ all cs
where
  /-- The children. -/
  all : List (Tree Elem) → Prop
    | [] => True
    | c :: cs => Enclosed c ∧ all cs

end Quickly.Indent.Layout
