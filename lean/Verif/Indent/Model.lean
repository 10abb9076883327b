import Verif.Text.Model
import Verif.PyDict

/-!
# Model of the indenter, `quickly/dom/indent.py`

The elements are those of `Verif.Text.Model`.  Numbers of spaces are integers, as the
caller may give any (`' ' * n` is empty for a negative `n`).

The lists `_indent_stack` and `_indenters` have their last item in front here; `_output`
is split in its last block `cur` and the earlier ones `done`.
-/

namespace Quickly.Indent

open Quickly.Node Quickly.Text

/-- The attributes of an `Indenter`, L92-106. -/
structure Config where
  indentWidth : ℤ := 2
  startIndent : ℤ := 0
  maxAlignIndent : ℤ := 16

/-- `_IndentLevel`, L29-33. -/
structure Level where
  alignIndices : List ℤ
  alignPositions : PyDict ℤ ℕ

/-- `_IndentLevel.align_child`, L35-37. -/
def Level.alignChild (l : Level) (childIndex : ℤ) (pos : ℕ) : Level :=
  { l with alignPositions := l.alignPositions.set childIndex pos }

/-- The loop of `get_align_pos`, L45-49. -/
def alignLoop (d : PyDict ℤ ℕ) : List ℤ → Option ℕ
  | [] => none
  | i :: is =>
    match d.get i with
    | some p => some p
    | none => alignLoop d is

/-- `_IndentLevel.get_align_pos`, L39-49. -/
def Level.getAlignPos (l : Level) : Option ℕ := alignLoop l.alignPositions l.alignIndices

/-- `_Block`, L53-62. -/
structure Block where
  indent : ℤ
  line : List Str

/-- `_Block.offset`, L64-66. -/
def Block.offset (b : Block) (pos : ℕ) : ℕ := ((b.line.take pos).map List.length).sum

/-- `_Block.output`, L68-70. -/
def Block.output (b : Block) : Str := List.replicate b.indent.toNat ' ' ++ b.line.flatten ++ ['\n']

/-- The working variables, L108-114; `dedenters` is `-_dedenters`. `failed` is set where
Python would raise IndexError. -/
structure St where
  done : List Block
  cur : Block
  stack : List ℤ
  indenters : List Level
  dedenters : ℕ
  whitespace : List Str
  canDedent : Bool
  failed : Bool

/-- `add_whitespace`, L182-184. -/
def addWhitespace (w : Str) (s : St) : St := { s with whitespace := s.whitespace ++ [w] }

/-- `enter_indent`, L186-188. -/
def enterIndent (e : Elem) (s : St) : St := { s with indenters := ⟨e.align, []⟩ :: s.indenters }

/-- `leave_indent`, L190-195. -/
def leaveIndent (s : St) : St :=
  match s.indenters with
  | _ :: is => { s with indenters := is }
  | [] => { s with dedenters := s.dedenters + 1 }

/-- `current_indent`, L197-202. -/
def currentIndent (cfg : Config) (stack : List ℤ) : ℤ :=
  match stack with
  | i :: _ => i
  | [] => cfg.startIndent

/-- The loop in `create_new_block` that adds new levels, L214-221, on the levels in the order
they were entered; `current` is the indent before. -/
def addLevels (cfg : Config) (last : Block) (current : ℤ) : ℤ → List Level → List ℤ → List ℤ
  | _, [], stack => stack
  | new, l :: ls, stack =>
    let n := match l.getAlignPos with
      | some pos =>
        if (last.offset pos : ℤ) ≤ cfg.maxAlignIndent then current + last.offset pos
        else new + cfg.indentWidth
      | none => new + cfg.indentWidth
    addLevels cfg last current n ls (n :: stack)

/-- The indent stack of a new block, L206-222. -/
def newStack (cfg : Config) (s : St) : List ℤ :=
  let stack := s.stack.drop s.dedenters
  let current := currentIndent cfg stack
  addLevels cfg s.cur current current s.indenters.reverse stack

/-- `create_new_block`, L204-227. -/
def createNewBlock (cfg : Config) (s : St) : St :=
  { s with
    done := s.done ++ [s.cur]
    cur := ⟨currentIndent cfg (newStack cfg s), []⟩
    stack := newStack cfg s
    indenters := []
    dedenters := 0
    canDedent := !(newStack cfg s).isEmpty }

/-- Appending a piece of text to the current line. -/
def put (x : Str) (s : St) : St := { s with cur := { s.cur with line := s.cur.line ++ [x] } }

/-- The loop in `output_space`, L231-235. -/
def spaceLoop (cfg : Config) : Str → St → St
  | [], s => s
  | c :: cs, s => spaceLoop cfg cs (if c = '\n' then createNewBlock cfg s else put [c] s)

/-- `output_space`, L229-236. -/
def outputSpace (cfg : Config) (s : St) : St :=
  { spaceLoop cfg (collapse s.whitespace) s with whitespace := [] }

/-- `output_head`, L238-259. -/
def outputHead (cfg : Config) (text : Str) (index : ℤ) (override : Option ℤ) (s : St) : St :=
  let s := outputSpace cfg s
  let cur := match override with
    | some i => if s.cur.line.isEmpty then { s.cur with indent := i } else s.cur
    | none => s.cur
  let indenters := match s.indenters with
    | l :: ls =>
      if index ∈ l.alignIndices then l.alignChild index s.cur.line.length :: ls else l :: ls
    | [] => []
  put text { s with canDedent := false, cur := cur, indenters := indenters }

/-- `output_tail`, L261-269. `del self._indent_stack[self._dedenters]` deletes one item,
the one with number `dedenters` from the end, and fails if there is none. -/
def outputTail (cfg : Config) (text : Str) (s : St) : St :=
  let s := outputSpace cfg s
  let s :=
    if s.canDedent && s.dedenters != 0 then
      let stack := s.stack.eraseIdx (s.dedenters - 1)
      { s with
        stack := stack
        dedenters := 0
        cur := { s.cur with indent := currentIndent cfg stack }
        failed := s.failed || decide (s.stack.length < s.dedenters) }
    else s
  put text s

/-- `output_node`, first part, L153-162. -/
def nodeStart (cfg : Config) (e : Elem) (index : ℤ) (hasChildren : Bool) (s : St) : St :=
  let s := addWhitespace e.sp.before s
  let s :=
    if e.kind ≠ .plain ∧ e.head ≠ [] then
      let s := outputHead cfg e.head index e.override s
      if e.hasTail || hasChildren then addWhitespace e.sp.afterHead s else s
    else s
  if e.indent then enterIndent e s else s

/-- `output_node`, last part, L172-180. -/
def nodeEnd (cfg : Config) (e : Elem) (s : St) : St :=
  let s := if e.indent then leaveIndent s else s
  let s := if e.hasTail then outputTail cfg e.tail (addWhitespace e.sp.beforeTail s) else s
  addWhitespace e.sp.after s

/-- `self.add_whitespace(node.concat_space(n, m))`, L168, if there is a previous child. -/
def addBetween (cc : Concat) (e : Elem) (prev : Option (Tree Elem)) (m : Tree Elem) (s : St) : St :=
  match prev with
  | some n => addWhitespace (cc e n m) s
  | none => s

/-- `output_node`, L141-180. -/
def outputNode (cc : Concat) (cfg : Config) (index : ℤ) : Tree Elem → St → St
  | .node e cs, s => nodeEnd cfg e (kids e none 0 cs (nodeStart cfg e index (!cs.isEmpty) s))
where
  /-- The children, L164-170; with the previous child and the index of the next. -/
  kids (e : Elem) (prev : Option (Tree Elem)) (i : ℤ) : List (Tree Elem) → St → St
    | [], s => s
    | m :: ms, s => kids e (some m) (i + 1) ms (outputNode cc cfg i m (addBetween cc e prev m s))

/-- The start of `write`, L121-127. -/
def initial (cfg : Config) : St :=
  { done := []
    cur := ⟨cfg.startIndent, []⟩
    stack := []
    indenters := []
    dedenters := 0
    whitespace := []
    canDedent := false
    failed := false }

/-- `str.isspace`, given which characters are whitespace. -/
def strIsSpace (isSpace : Char → Bool) (x : Str) : Bool := !x.isEmpty && x.all isSpace

/-- The loop that strips preceding space, L130-138. -/
def strip (isSpace : Char → Bool) : List Block → List Block
  | [] => []
  | b :: bs =>
    match b.line.dropWhile (strIsSpace isSpace) with
    | [] => strip isSpace bs
    | x :: xs => { b with line := x :: xs } :: bs

/-- The blocks of the output, before they are written. -/
def blocks (isSpace : Char → Bool) (cc : Concat) (cfg : Config) (t : Tree Elem) : List Block :=
  let s := outputNode cc cfg (-1) t (initial cfg)
  strip isSpace (s.done ++ [s.cur])

/-- `write`, L116-139; also `write_indented()`, `quickly/dom/element.py` L776-793. -/
def writeIndented (isSpace : Char → Bool) (cc : Concat) (cfg : Config) (t : Tree Elem) : Py Str :=
  if (outputNode cc cfg (-1) t (initial cfg)).failed then .error .indexError
  else .ok ((blocks isSpace cc cfg t).flatMap Block.output)

end Quickly.Indent
