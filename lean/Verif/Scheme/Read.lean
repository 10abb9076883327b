import Verif.Node.Model
import Mathlib.Data.List.Basic

/-!
# Reading Scheme: `quickly/lang/scheme.py` L42-129

The tokens and contexts that parce makes are given. A context whose transform is not one of the methods here (LilyPond music
in `#{ #}`) has an element, or something that is not an element, as its result.
-/

namespace Quickly.Scheme.Read

/-- The actions of tokens that `common` distinguishes, L45-51. -/
inductive Action where
  | quote | character | dot | keyword | name | boolean | openParen | closeParen | other
deriving DecidableEq

/-- A token, with an identity. -/
structure Tok where
  id : ℕ
  action : Action
deriving DecidableEq

/-- The classes of elements. `digits` is `Number`, `Bin`, `Oct` or `Hex`. -/
inductive Cls where
  | char | dot | ident | bool | quote | list | vector | digits (radix : ℕ) | nan | string | multiline | singleline | lilypond
deriving DecidableEq

/-- An element with its origin. -/
structure SNode where
  cls : Cls
  head : List Tok
  tail : List Tok
deriving DecidableEq

/-- The contexts of Scheme. For a number: the radix, and whether `read_head` accepts the tokens. -/
inductive Ctx where
  | list | vector | number (radix : ℕ) (valid : Bool) | string | multiline | singleline
deriving DecidableEq

/-- What a context contains: tokens, contexts; and contexts with other transforms, by their result. -/
inductive Src where
  | tok (t : Tok)
  | ctx (c : Ctx) (items : List Src)
  | obj (n : Option (Node.Tree SNode))

/-- An item as a transform method gets it: a token or the result of a context (`none` if it is not an element). -/
inductive Item where
  | tok (t : Tok)
  | obj (n : Option (Node.Tree SNode))

/-- `_common_mapping[action]`, L45-51. -/
def mapping : Action → Py Cls
  | .character => .ok .char
  | .dot => .ok .dot
  | .keyword => .ok .ident
  | .name => .ok .ident
  | .boolean => .ok .bool
  | _ => .error .keyError

/-- `for q in reversed(quotes): node = factory(Quote, (q,), (), node)`, L65-66. -/
def wrap (quotes : List Tok) (n : Node.Tree SNode) : Node.Tree SNode :=
  quotes.foldr (fun q n => .node ⟨.quote, [q], []⟩ [n]) n

/-- `common(items)`, L54-68, with the list `quotes`. -/
def common : List Tok → List Item → Py (List (Node.Tree SNode))
  | _, [] => .ok []
  | quotes, .tok t :: items =>
    if t.action = .quote then common (quotes ++ [t]) items
    else match mapping t.action with
      | .error e => .error e
      | .ok c => match common [] items with
        | .error e => .error e
        | .ok ns => .ok (wrap quotes (.node ⟨c, [t], []⟩ []) :: ns)
  | quotes, .obj (some n) :: items =>
    match common [] items with
    | .error e => .error e
    | .ok ns => .ok (wrap quotes n :: ns)
  | quotes, .obj none :: items => common quotes items

/-- `head = items[:1]`, as tokens. -/
def headOf : List Item → List Tok
  | .tok t :: _ => [t]
  | _ => []

/-- `(items.pop(),) if items[-1] == ')' else ()`, and the items that remain. -/
def splitTail (items : List Item) : List Item × List Tok :=
  match items.getLast? with
  | some (.tok t) => if t.action = .closeParen then (items.dropLast, [t]) else (items, [])
  | _ => (items, [])

/-- `list(items)` and `vector(items)`, L75-85. -/
def block (c : Cls) (items : List Item) : Py (Node.Tree SNode) :=
  let head := headOf items
  let (items, tail) := splitTail items
  match common [] (items.drop 1) with
  | .error e => .error e
  | .ok ns => .ok (.node ⟨c, head, tail⟩ ns)

/-- The tokens of items. -/
def tokens (items : List Item) : List Tok :=
  items.filterMap fun i => match i with
    | .tok t => some t
    | .obj _ => none

/-- `_radix_mapping`, L87-92; the lexicon has no other radixes. -/
def numberCls (radix : ℕ) (valid : Bool) : Py Cls :=
  if radix = 2 ∨ radix = 8 ∨ radix = 10 ∨ radix = 16 then .ok (if valid then .digits radix else .nan) else .error .keyError

/-- The method of a context, L75-117. -/
def method (c : Ctx) (items : List Item) : Py (Node.Tree SNode) :=
  match c with
  | .list => block .list items
  | .vector => block .vector items
  | .number r v => match numberCls r v with
    | .ok c => .ok (.node ⟨c, tokens items, []⟩ [])
    | .error e => .error e
  | .string => .ok (.node ⟨.string, tokens items, []⟩ [])
  | .multiline => .ok (.node ⟨.multiline, tokens items, []⟩ [])
  | .singleline => .ok (.node ⟨.singleline, tokens items, []⟩ [])

/-- parce transforms the contexts from the inside out. -/
def transform : Src → Py Item
  | .tok t => .ok (.tok t)
  | .obj n => .ok (.obj n)
  | .ctx c items => match go items with
    | .error e => .error e
    | .ok is => match method c is with
      | .error e => .error e
      | .ok n => .ok (.obj (some n))
where
  /-- All items of a context. -/
  go : List Src → Py (List Item)
    | [] => .ok []
    | s :: ss => match transform s with
      | .error e => .error e
      | .ok i => match go ss with
        | .error e => .error e
        | .ok is => .ok (i :: is)

/-- `root(items)`, L71-73: the children of the document. -/
def root (items : List Src) : Py (List (Node.Tree SNode)) :=
  match transform.go items with
  | .error e => .error e
  | .ok is => common [] is

/-- `scheme(items)`, L115-122: the `lily.Scheme` node has the first datum as its child. The result is the token and the children. -/
def scheme (items : List Src) : Py (List Tok × List (Node.Tree SNode)) :=
  match transform.go items with
  | .error e => .error e
  | .ok is => match common [] (is.drop 1) with
    | .error e => .error e
    | .ok ns => .ok (headOf is, ns.take 1)

/-! ## Specification -/

namespace Spec

/-- The classes of words. -/
def isWord (a : Action) : Option Cls :=
  match a with
  | .character => some .char
  | .dot => some .dot
  | .keyword => some .ident
  | .name => some .ident
  | .boolean => some .bool
  | _ => none

/-- Scheme expressions, with their tokens: words; numbers, strings and comments; LilyPond music; quoted expressions; lists and
vectors, where the closing parenthesis may be missing at the end of the text. -/
inductive Sx where
  | word (t : Tok)
  | leaf (c : Ctx) (ts : List Tok)
  | music (n : Node.Tree SNode)
  | quoted (q : Tok) (x : Sx)
  | block (isVector : Bool) (op : Tok) (xs : List Sx) (cl : Option Tok)

/-- The tokens have the right actions. -/
def Sx.Ok : Sx → Prop
  | .word t => (isWord t.action).isSome = true
  | .leaf c _ => match c with
    | .list | .vector => False
    | .number r _ => r = 2 ∨ r = 8 ∨ r = 10 ∨ r = 16
    | _ => True
  | .music _ => True
  | .quoted q x => q.action = .quote ∧ x.Ok
  | .block _ _ xs cl => go xs ∧ ∀ c ∈ cl, c.action = .closeParen
where
  /-- All of them. -/
  go : List Sx → Prop
    | [] => True
    | x :: xs => x.Ok ∧ go xs

/-- The tokens and contexts of an expression. -/
def Sx.src : Sx → List Src
  | .word t => [.tok t]
  | .leaf c ts => [.ctx c (ts.map .tok)]
  | .music n => [.obj (some n)]
  | .quoted q x => .tok q :: x.src
  | .block v op xs cl => [.ctx (if v then .vector else .list) (.tok op :: go xs ++ cl.toList.map .tok)]
where
  /-- Of all of them. -/
  go : List Sx → List Src
    | [] => []
    | x :: xs => x.src ++ go xs

/-- The element of an expression. -/
def Sx.node : Sx → Node.Tree SNode
  | .word t => .node ⟨(isWord t.action).getD .ident, [t], []⟩ []
  | .leaf c ts => .node ⟨match c with
      | .number r v => if v then .digits r else .nan
      | .multiline => .multiline
      | .singleline => .singleline
      | _ => .string, ts, []⟩ []
  | .music n => n
  | .quoted q x => .node ⟨.quote, [q], []⟩ [x.node]
  | .block v op xs cl => .node ⟨if v then .vector else .list, [op], cl.toList⟩ (go xs)
where
  /-- Of all of them. -/
  go : List Sx → List (Node.Tree SNode)
    | [] => []
    | x :: xs => x.node :: go xs

/-- All tokens of the elements: first those of the head, then those of the children, then those of the tail. -/
def toks : Node.Tree SNode → List Tok
  | .node n cs => n.head ++ go cs ++ n.tail
where
  /-- Of all of them. -/
  go : List (Node.Tree SNode) → List Tok
    | [] => []
    | c :: cs => toks c ++ go cs

/-- All tokens of the source. -/
def srcToks : Src → List Tok
  | .tok t => [t]
  | .obj (some n) => toks n
  | .obj none => []
  | .ctx _ items => go items
where
  /-- Of all of them. -/
  go : List Src → List Tok
    | [] => []
    | s :: ss => srcToks s ++ go ss

end Spec

end Quickly.Scheme.Read
