import Verif.Text.Model

/-!
# Model of writing back modifications, `quickly/dom/element.py` L617-685

The parce tokens of the context are given by their position and end. The document is a text;
`edit` applies the edits inside a `with document:` block, in which the positions of all edits refer to the
original text.
-/

namespace Quickly.Edits

open Quickly.Node Quickly.Text

/-- A token: position and end. -/
abbrev Tok := ℕ × ℕ

/-- A text change `(pos, end, text)`. -/
abbrev Edit := ℕ × ℕ × Str

/-- The loop over the tokens, L643-647: the result has `pos`, `del_end` and the tokens that are left. -/
def scan (p : ℕ) : ℕ → ℕ → List Tok → ℕ × ℕ × List Tok
  | pos, delEnd, [] => (pos, delEnd, [])
  | pos, delEnd, t :: ts => if t.1 ≥ p then (t.1, delEnd, ts) else scan p pos t.2 ts

/-- The edits before an existing point at `p`, L640-653; the result has the tokens that are left. -/
def before (p pos : ℕ) (space : Str) (tokens : List Tok) : List Edit × List Tok :=
  if p > pos then
    let delPos := pos
    match scan p pos pos tokens with
    | (pos, delEnd, tokens) =>
      (if delEnd > delPos then
        [(delPos, if space ≠ [] ∧ delEnd < pos then pos else delEnd, space)]
      else [], tokens)
  else (if space ≠ [] then [(p, p, space)] else [], tokens)

/-- The loop over the points, L630-658, and the last edit, L659-660. -/
def loop (stop : ℕ) : ℕ → List Tok → Str → List Point → List Edit
  | pos, _, _, [] => if pos < stop then [(pos, stop, [])] else []
  | pos, tokens, insertAfter, pt :: pts =>
    let space := collapse [insertAfter, pt.before]
    match pt.range with
    | none =>
      if pt.text ≠ [] then (pos, pos, space ++ pt.text) :: loop stop pos tokens pt.after pts
      else loop stop pos tokens insertAfter pts
    | some (p, e) =>
      (before p pos space tokens).1 ++ (if pt.modified then [(p, e, pt.text)] else []) ++
        loop stop e (before p pos space tokens).2 pt.after pts

/-- A parce context: `pos` and `end` are those of the first and last token. -/
structure Context where
  pos : ℕ
  stop : ℕ
  tokens : List Tok

/-- `edits(context, start, end)`, L617-660. -/
def edits (cc : Concat) (ctx : Context) (start stop : Option ℕ) (t : Tree Elem) : List Edit :=
  loop (stop.getD ctx.stop) (start.getD ctx.pos) ctx.tokens [] (points cc t)

/-- What parce makes of a series of edits, each given with positions in the original text, L679-684; from the
position `i` in the text. -/
def applyFrom (doc : Str) : ℕ → List Edit → Str
  | i, [] => doc.drop i
  | i, (p, e, x) :: es => (doc.take p).drop i ++ x ++ applyFrom doc e es

/-- `edit(document, context, start, end)`, L662-685: the new text of the document. -/
def edit (cc : Concat) (doc : Str) (ctx : Context) (start stop : Option ℕ) (t : Tree Elem) : Str :=
  applyFrom doc 0 (edits cc ctx start stop t)

end Quickly.Edits
