import Verif.Node.Model
import Mathlib.Data.Nat.Notation
import Mathlib.Data.Int.Notation

/-!
# Text output of elements

Models `quickly/dom/util.py` L25-73 and `quickly/dom/element.py` L547-615, L817-859.
A text is a list of characters.
-/

namespace Quickly.Text

open Quickly.Node

/-- A text. -/
abbrev Str := List Char

/-- `whitespace_key(text)`, `quickly/dom/util.py` L25-33. -/
def key (s : Str) : ℕ × ℕ := (s.count '\n', s.count ' ')

/-- How Python compares two of these pairs. -/
def keyLt (a b : ℕ × ℕ) : Bool := a.1 < b.1 || (a.1 == b.1 && a.2 < b.2)

/-- `max(whitespaces, key=whitespace_key)` after the first: a later one is taken only if
its key is greater. -/
def pyMax : Str → List Str → Str
  | m, [] => m
  | m, x :: xs => if keyLt (key m) (key x) then pyMax x xs else pyMax m xs

/-- `collapse_whitespace(whitespaces)`, `quickly/dom/util.py` L36-49. -/
def collapse : List Str → Str
  | [] => []
  | x :: xs => pyMax x xs

/-- A fragment: whitespace before, text, whitespace after. -/
structure Frag where
  before : Str
  text : Str
  after : Str
deriving DecidableEq

/-- The loop of `combine_text`, L66-72, with the lists `result` and `whitespace`. -/
def combineLoop : List Str → List Str → List Frag → List Str × List Str
  | result, ws, [] => (result, ws)
  | result, ws, f :: fs =>
    if f.text = [] then combineLoop result (ws ++ [f.before] ++ [f.after]) fs
    else combineLoop (result ++ [collapse (ws ++ [f.before])] ++ [f.text]) [f.after] fs

/-- `combine_text(fragments)`, `quickly/dom/util.py` L52-73. -/
def combine (fs : List Frag) : Frag :=
  let (result, ws) := combineLoop [] [] fs
  ⟨(result.take 1).flatten, (result.drop 1).flatten, collapse ws⟩

/-- The classes of elements that differ in what text they have: `Element` (none),
`HeadElement` and `TextElement` (a head), `BlockElement` (head and tail). -/
inductive Kind where
  | plain
  | head
  | block
deriving DecidableEq

/-- The spacing attributes, `quickly/dom/element.py` L166-170. -/
structure Spaces where
  before : Str := []
  afterHead : Str := []
  between : Str := []
  beforeTail : Str := []
  after : Str := []
deriving DecidableEq

/-- What the text output needs of an element: its kind, what `write_head()` and
`write_tail()` return (for the kinds that have them), the positions of the first token and the end
of the last token of the origins (`none` if there is no origin or no token; a
`HeadElement` with an empty head origin, on which `head_point()` raises IndexError, is not
modelled), the flags `HEAD_MODIFIED` and `TAIL_MODIFIED`, and the spacing attributes. -/
structure Elem where
  kind : Kind
  head : Str := []
  tail : Str := []
  headOrigin : Option (ℕ × ℕ) := none
  tailOrigin : Option (ℕ × ℕ) := none
  headModified : Bool := false
  tailModified : Bool := false
  sp : Spaces := {}
  /-- `indent_children()`, `indent_align_indices()` and `indent_override()`; used by the
  indenter only. -/
  indent : Bool := false
  align : List ℤ := []
  override : Option ℤ := none

/-- `Point`, `quickly/dom/element.py` L66; `pos` and `end` together. -/
structure Point where
  range : Option (ℕ × ℕ)
  text : Str
  modified : Bool
  before : Str
  after : Str

/-- `self.write_tail()` is a text that is not empty. -/
def Elem.hasTail (e : Elem) : Bool := e.kind == .block && e.tail != []

/-- `head_point()`, L547-552 and L817-828; with the number of children. -/
def headPoint (e : Elem) (len : ℕ) : Option Point :=
  if e.kind = .plain then none
  else some ⟨e.headOrigin, e.head, e.headModified, e.sp.before,
    if len ≠ 0 || e.hasTail then e.sp.afterHead else e.sp.after⟩

/-- `tail_point()`, L554-559 and L846-859. -/
def tailPoint (e : Elem) : Option Point :=
  if e.kind = .block then some ⟨e.tailOrigin, e.tail, e.tailModified, e.sp.beforeTail, e.sp.after⟩
  else none

/-- `collapse_last(points, last)`, L571-579. -/
def collapseLast : List Point → Str → List Point
  | [], _ => []
  | [p], last => [{ p with after := collapse [p.after, last] }]
  | p :: q :: ps, last => p :: collapseLast (q :: ps) last

/-- `concat_space(node, next_node)`: what a class has for it, with the element itself
and the two children. By default it is `space_between` (L595-605). -/
abbrev Concat := Elem → Tree Elem → Tree Elem → Str

/-- `Element.concat_space`. -/
def defaultConcat : Concat := fun e _ _ => e.sp.between

/-- `points()`, L561-593. -/
def points (cc : Concat) : Tree Elem → List Point
  | .node e cs => (headPoint e cs.length).toList ++ kids e cs ++ (tailPoint e).toList
where
  /-- The loop over the children, L583-591. -/
  kids (e : Elem) : List (Tree Elem) → List Point
    | [] => []
    | n :: ns => (match ns with
      | m :: _ => collapseLast (points cc n) (cc e n m)
      | [] => if (tailPoint e).isSome then points cc n else collapseLast (points cc n) e.sp.after) ++ kids e ns

/-- The fragment of a point. -/
def Point.frag (p : Point) : Frag := ⟨p.before, p.text, p.after⟩

/-- `write()`, L607-615. -/
def write (cc : Concat) (t : Tree Elem) : Str := (combine ((points cc t).map Point.frag)).text

end Quickly.Text
