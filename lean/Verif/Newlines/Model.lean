import Verif.Text.Model
import Verif.Basic

/-!
# Model of `add_newlines`, `quickly/dom/util.py` L76-134
-/

namespace Quickly.Newlines

open Quickly.Node Quickly.Text

/-- The search of `str.find` in the rest of a text, that begins at position `i`. -/
def findIn (sep : Str) : Str → ℕ → Option ℕ
  | [], i => if sep = [] then some i else none
  | c :: cs, i => if sep.isPrefixOf (c :: cs) then some i else findIn sep cs (i + 1)

/-- `text.find(block_separator, i)`; `none` for -1. -/
def find (text sep : Str) (i : ℕ) : Option ℕ := if i ≤ text.length then findIn sep (text.drop i) i else none

/-- The new `current_block` if the search begins at `i`, L96-98. -/
def seek (text sep : Str) (i : ℕ) : ℕ := (find text sep i).getD text.length

/-- The loop of `get_newlines(pos)`, L103-107, with `next_block()`, L93-100: the new `current_block` and
the count. The first argument bounds the number of steps: `current_block` grows with each of them until it is the length
of the text, so the length of the text suffices. -/
def countLoop (text sep : Str) (pos : ℕ) : ℕ → ℕ → ℕ × ℕ
  | 0, cur => (cur, 0)
  | fuel + 1, cur =>
    if pos > cur ∧ cur < text.length then
      let r := countLoop text sep pos fuel (seek text sep (cur + 1))
      (r.1, r.2 + 1)
    else (cur, 0)

/-- `get_newlines(pos)`, L102-109: the new `current_block` and the text. -/
def getNewlines (text sep : Str) (maxBlank : ℤ) (pos cur : ℕ) : ℕ × Str :=
  let r := countLoop text sep pos text.length cur
  (r.1, List.replicate (min (r.2 : ℤ) maxBlank).toNat '\n')

/-- The text `s` if it is not empty and more important than the whitespace `old`, else that, L118-119, L129-130. -/
def better (s old : Str) : Str := if s ≠ [] ∧ keyLt (key old) (key s) then s else old

/-- The head in `handle_node(node)`, L112-119, with `current_block`: the new `space_before` and the new `current_block`. A
plain element has no `head_origin`. -/
def handleHead (text sep : Str) (maxBlank : ℤ) (cur : ℕ) (e : Elem) : Str × ℕ :=
  match e.kind, e.headOrigin with
  | .plain, _ => (e.sp.before, cur)
  | _, none => (e.sp.before, cur)
  | _, some (pos, _) =>
    (better (getNewlines text sep maxBlank pos cur).2 e.sp.before, (getNewlines text sep maxBlank pos cur).1)

/-- The tail in `handle_node(node)`, L124-130: the new `space_before_tail` and the new `current_block`. An element has the
attribute `tail_origin` if it is a `BlockElement` that has a `head_origin`; it is empty if the tail was missing, and then
L128 raises IndexError. -/
def handleTail (text sep : Str) (maxBlank : ℤ) (cur : ℕ) (e : Elem) : Py (Str × ℕ) :=
  match e.kind, e.headOrigin, e.tailOrigin with
  | .block, some _, none => .error .indexError
  | .block, _, some (pos, _) =>
    .ok (better (getNewlines text sep maxBlank pos cur).2 e.sp.beforeTail, (getNewlines text sep maxBlank pos cur).1)
  | _, _, _ => .ok (e.sp.beforeTail, cur)

/-- `handle_node(node)`, L111-130, with `current_block`: the changed node and the new `current_block`. -/
def handle (text sep : Str) (maxBlank : ℤ) (cur : ℕ) : Tree Elem → Py (Tree Elem × ℕ)
  | .node e cs =>
    let h := handleHead text sep maxBlank cur e
    do
      let ks ← kids h.2 cs
      let t ← handleTail text sep maxBlank ks.2 e
      pure (.node { e with sp := { e.sp with before := h.1, beforeTail := t.1 } } ks.1, t.2)
where
  /-- The loop over the children, L121-122. -/
  kids (cur : ℕ) : List (Tree Elem) → Py (List (Tree Elem) × ℕ)
    | [] => pure ([], cur)
    | c :: cs => do
      let r ← handle text sep maxBlank cur c
      let rs ← kids r.2 cs
      pure (r.1 :: rs.1, rs.2)

/-- `add_newlines(node, text, block_separator, max_blank_lines)`, L132-134: the changed node. The first `next_block()` searches from
the begin of the text. -/
def addNewlines (text sep : Str) (maxBlank : ℤ) (t : Tree Elem) : Py (Tree Elem) := do
  let r ← handle text sep maxBlank (seek text sep 0) t
  pure r.1

end Quickly.Newlines
