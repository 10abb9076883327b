import Verif.Text.Model
import Verif.Basic

/-!
# Model of LaTeX elements, `quickly/dom/tex.py`, and of reading LaTeX, `quickly/lang/latex.py`

Tokens and contexts are what parce gives; which context a piece of text comes in is not modelled. Of LilyPond music in
LaTeX the nodes are given.
-/

namespace Quickly.Tex

open Quickly.Node Quickly.Text

/-- What the transform looks at of the action of a token; `text` is every other one. `Delimiter.Brace` and
`Delimiter.Bracket` are below `Delimiter`. -/
inductive Action where
  | text
  | delimiter
  | brace
  | bracket
  | nameTag
  | builtin
  | command
deriving DecidableEq

/-- `action in a.Delimiter`. -/
def Action.isDelimiter : Action → Bool
  | .delimiter | .brace | .bracket => true
  | _ => false

/-- A token. -/
structure Tok where
  action : Action
  text : Str
  pos : ℕ := 0
deriving DecidableEq

/-- `token.end`. -/
def Tok.stop (t : Tok) : ℕ := t.pos + t.text.length

/-- The four kinds of math, `quickly/dom/tex.py` L60-82. -/
inductive Math where
  | inlineParen
  | inlineDollar
  | displayBracket
  | displayDollar
deriving DecidableEq

/-- `head`, L62, L68, L73, L79. -/
def Math.head : Math → Str
  | .inlineParen => ['\\', '(']
  | .inlineDollar => ['$']
  | .displayBracket => ['\\', '[']
  | .displayDollar => ['$', '$']

/-- `tail`, L63, L68, L74, L79. -/
def Math.tail : Math → Str
  | .inlineParen => ['\\', ')']
  | .inlineDollar => ['$']
  | .displayBracket => ['\\', ']']
  | .displayDollar => ['$', '$']

/-- `_math_mapping`, `quickly/lang/latex.py` L168-170, with `head_mapping`, `quickly/dom/element.py` L1050-1064. -/
def Math.ofHead (s : Str) : Option Math :=
  [Math.inlineParen, .inlineDollar, .displayBracket, .displayDollar].find? fun m => m.head = s

/-- The classes of `quickly/dom/tex.py`, with the head value of those that have one. `lilyDocument` is `lily.Document`,
`other` stands for elements of LilyPond with what they write. The name of an environment may be missing. -/
inductive Cls where
  | document
  | option
  | brace
  | math (m : Math)
  | command (head : Str)
  | text (head : Str)
  | environment
  | envName (head : Option Str)
  | comment (head : Str)
  | lilyDocument
  | other (head : Str)

/-- What the elements write, and their spacing, `quickly/dom/tex.py` L40-149. Writing an environment name that is missing would
raise TypeError, here it is written as nothing. What is put between the children of a document
(`concat_space`, `quickly/dom/base.py` L40-47) is not here: it is a parameter of `points`. -/
def Cls.elem : Cls → Elem
  | .document => { kind := .plain }
  | .option => { kind := .block, head := ['['], tail := [']'] }
  | .brace => { kind := .block, head := ['{'], tail := ['}'] }
  | .math m => { kind := .block, head := m.head, tail := m.tail }
  | .command s => { kind := .head, head := '\\' :: s }
  | .text s => { kind := .head, head := s }
  | .environment => { kind := .plain, sp := { before := ['\n'], after := ['\n'] } }
  | .envName s => { kind := .head, head := ['{'] ++ s.getD [] ++ ['}'] }
  | .comment s => { kind := .head, head := '%' :: s, sp := { after := ['\n'] } }
  | .lilyDocument => { kind := .plain }
  | .other s => { kind := .head, head := s }

/-- A node: its class, and its head and tail origin. -/
structure Val where
  cls : Cls
  head : List Tok := []
  tail : List Tok := []

/-- A tree of LaTeX elements. -/
abbrev Dom := Node.Tree Val

/-- `with_origin(head_origin, tail_origin, *children)`, `quickly/dom/base.py` L229-239. -/
def factory (c : Cls) (head tail : List Tok) (cs : List Dom) : Dom := .node ⟨c, head, tail⟩ cs

/-! ## Reading -/

/-- An option in what `option()` returns: a finished node, or the contents and the tail of one that misses its opening
token. -/
inductive Opt where
  | node (n : Dom)
  | tuple (contents : List Dom) (tail : List Tok)

/-- An item the transform gets: a token, or a context with the object the transform made of it. -/
inductive Item where
  | tok (t : Tok)
  /-- `brace`. -/
  | brace (n : Dom)
  /-- `math` or `comment`. -/
  | node (n : Dom)
  /-- `option`. -/
  | option (opts : List Opt) (commandHead : List Tok)
  /-- `environment_option`. -/
  | envOption (opts : List Opt) (name : Option Dom)
  /-- `environment` or `environment_math`. -/
  | env (nodes : List Dom)
  /-- `latex_lilypond_environment`. -/
  | lily (opts : List Opt) (music : List Dom) (tail : List Tok)
  /-- LilyPond, only inside that: the nodes that are made of it. -/
  | music (ns : List Dom)

/-- `EnvironmentName.read_head(origin)`, `quickly/dom/tex.py` L128-132: `in` is being a substring of `{}`. -/
def readName (o : List Tok) : Option Str :=
  (o.find? fun t => !(t.text = [] || t.text = ['{'] || t.text = ['}'] || t.text = ['{', '}'])).map Tok.text

/-- A node `EnvironmentName`. -/
def envName (o : List Tok) : Dom := factory (.envName (readName o)) o [] []

/-- A node `Command`: `''.join(t.text for t in origin)[1:]`, `quickly/dom/base.py` L95-99. -/
def commandNode (t : Tok) (cs : List Dom) : Dom := factory (.command (t.text.drop 1)) [t] [] cs

/-- A node `Text`. -/
def textNode (ts : List Tok) : Dom := factory (.text (ts.flatMap Tok.text)) ts [] []

/-- A node `Comment`: the first token is not in the head, `quickly/dom/tex.py` L142-144. -/
def commentNode (ts : List Tok) : Dom := factory (.comment ((ts.drop 1).flatMap Tok.text)) ts [] []

/-- `node.extend(options)` with a tuple in it raises AttributeError. -/
def nodes : List Opt → Py (List Dom)
  | [] => .ok []
  | .node n :: os => do
    let ns ← nodes os
    .ok (n :: ns)
  | .tuple _ _ :: _ => .error .attributeError

/-- `get_options(options)`, `quickly/lang/latex.py` L193-200; `head` is the token `[`. -/
def getOptions (head : Tok) : List Opt → Py (List Dom)
  | [] => .error .indexError
  | .tuple contents tail :: os => do
    let ns ← nodes os
    .ok (factory .option [head] tail contents :: ns)
  | os => nodes os

/-- The options of a command, L206-209; the result has the items that are left. -/
def commandOptions (items : List Item) : Py (List Dom × List Item) :=
  match items with
  | .tok b :: .option os _ :: rest =>
    if b.action = .bracket then do
      let ns ← getOptions b os
      .ok (ns, rest)
    else .ok ([], items)
  | _ => .ok ([], items)

/-- `command(t)`, L202-214. -/
def command (t : Tok) (items : List Item) : Py (Dom × List Item) := do
  let (opts, items) ← commandOptions items
  match items with
  | .brace n :: rest => .ok (commandNode t (opts ++ [n]), rest)
  | _ => .ok (commandNode t opts, items)

/-- `lilypond_command(t)`, L216-232. -/
def lilypondCommand (t : Tok) (items : List Item) : Py (Dom × List Item) :=
  match items with
  | .tok b :: .lily _ music tail :: rest =>
    if b.action = .brace then .ok (commandNode t [factory .brace [b] tail music], rest)
    else .ok (commandNode t [], items)
  | .tok b :: .option os head :: rest =>
    if b.action.isDelimiter then do
      let ns ← getOptions b os
      match rest with
      | .lily _ music tail :: rest => .ok (commandNode t (ns ++ [factory .brace head tail music]), rest)
      | _ => .ok (commandNode t ns, rest)
    else .ok (commandNode t [], items)
  | _ => .ok (commandNode t [], items)

/-- The name or the options after `\begin`, L238-248. -/
def envHead (items : List Item) : Py (List Dom × List Item) :=
  match items with
  | .tok a :: .tok b :: .tok c :: rest =>
    if a.action.isDelimiter ∧ b.action = .nameTag ∧ c.action.isDelimiter then .ok ([envName [a, b, c]], rest)
    else .ok ([], items)
  | .tok a :: .envOption os name :: rest =>
    if a.action = .bracket then do
      let ns ← getOptions a os
      .ok (ns ++ name.toList, rest)
    else .ok ([], items)
  | _ => .ok ([], items)

/-- An `Environment` with its first child, the command. -/
def envNode (t : Tok) (args : List Dom) (contents : List Dom) : Dom :=
  .node ⟨.environment, [], []⟩ (commandNode t args :: contents)

/-- `environment(t)`, L234-260. -/
def environment (t : Tok) (items : List Item) : Py (Dom × List Item) := do
  let (args, items) ← envHead items
  match items with
  | [] => .ok (envNode t args [], items)
  | .tok _ :: _ => .ok (envNode t args [], items)
  | .env ns :: rest => .ok (envNode t args ns, rest)
  | .lily os music _ :: rest => do
    let ns ← nodes os
    .ok (envNode t (args ++ ns) music, rest)
  | _ :: rest => .ok (envNode t args [], rest)

/-- `if text: result.append(self.factory(tex.Text, text))`, L279-284. -/
def flush (text : List Tok) : List Dom := if text = [] then [] else [textNode text]

/-- `common(items)`, L186-285: the loop, with the tokens in `text`. The number of items is at most `fuel`. -/
def commonLoop : ℕ → List Tok → List Item → Py (List Dom)
  | 0, text, _ => .ok (flush text)
  | _ + 1, text, [] => .ok (flush text)
  | fuel + 1, text, .tok t :: items =>
    if t.action = .builtin then do
      let (n, rest) ← if t.text = "\\lilypond".toList then lilypondCommand t items else environment t items
      let ns ← commonLoop fuel [] rest
      .ok (flush text ++ n :: ns)
    else if t.action = .command then do
      let (n, rest) ← command t items
      let ns ← commonLoop fuel [] rest
      .ok (flush text ++ n :: ns)
    else commonLoop fuel (text ++ [t]) items
  | fuel + 1, text, .brace n :: items => do
    let ns ← commonLoop fuel [] items
    .ok (flush text ++ n :: ns)
  | fuel + 1, text, .node n :: items => do
    let ns ← commonLoop fuel [] items
    .ok (flush text ++ n :: ns)
  | fuel + 1, text, _ :: items => commonLoop fuel text items

/-- `common(items)`. -/
def common (items : List Item) : Py (List Dom) := commonLoop items.length [] items

/-- `items[-1] == s`. -/
def lastIs (s : Str) (items : List Item) : Option Tok :=
  match items.getLast? with
  | some (.tok t) => if t.text = s then some t else none
  | _ => none

/-- The tokens among the items. -/
def toks : List Item → List Tok
  | [] => []
  | .tok t :: items => t :: toks items
  | _ :: items => toks items

/-- `brace(items)`, L76-80. -/
def brace (items : List Item) : Py Dom :=
  match items with
  | [] => .error .indexError
  | _ :: _ => match lastIs ['}'] items with
    | some t => do
      let ns ← common (items.dropLast.drop 1)
      .ok (factory .brace (toks (items.take 1)) [t] ns)
    | none => do
      let ns ← common (items.drop 1)
      .ok (factory .brace (toks (items.take 1)) [] ns)

/-- `math(items)`, L172-177. -/
def math (items : List Item) : Py Dom :=
  match items with
  | .tok t :: rest =>
    match Math.ofHead t.text with
    | none => .error .keyError
    | some m =>
      match lastIs m.tail rest with
      | some c => do
        let ns ← common rest.dropLast
        .ok (factory (.math m) [t] [c] ns)
      | none => do
        let ns ← common rest
        .ok (factory (.math m) [t] [] ns)
  | _ => .error .attributeError

/-- The items before the first token with this text, the token and the items after it: `items.index(text, pos)`. -/
def split (s : Str) : List Item → Option (List Item × Tok × List Item)
  | [] => none
  | .tok t :: items =>
    if t.text = s then some ([], t, items)
    else match split s items with
      | some (a, c, b) => some (.tok t :: a, c, b)
      | none => none
  | i :: items => match split s items with
    | some (a, c, b) => some (i :: a, c, b)
    | none => none

/-- The loop of `option(items)`, L108-129, with `head_origin` and the items from `pos` on. -/
def optionLoop : ℕ → List Tok → List Item → Py (List Opt)
  | 0, _, _ => .ok []
  | fuel + 1, head, items =>
    match split [']'] items with
    | none => do
      let ns ← common items
      .ok [.node (factory .option head [] ns)]
    | some (before, t, after) => do
      let ns ← common before
      let o := if head ≠ [] then Opt.node (factory .option head [t] ns) else .tuple ns [t]
      match split ['['] after with
      | none => .ok [o]
      | some (_, h, rest) => do
        let os ← optionLoop fuel [h] rest
        .ok (o :: os)

/-- `option(items)` after the brace has been looked for, L100-130. -/
def optionNodes (items : List Item) : Py (List Opt) :=
  match items with
  | .tok t :: rest =>
    if t.action = .bracket ∧ t.text = ['['] then optionLoop (items.length + 1) [t] rest
    else optionLoop (items.length + 1) [] items
  | _ => optionLoop (items.length + 1) [] items

/-- `option(items)`, L82-130. -/
def option (items : List Item) : Py (List Opt × List Tok) := do
  match items.getLast? with
  | some (.tok t) =>
    if t.action = .brace then do
      let os ← optionNodes items.dropLast
      .ok (os, [t])
    else do
      let os ← optionNodes items
      .ok (os, [])
  | _ => do
    let os ← optionNodes items
    .ok (os, [])

/-- The last three items are a delimiter, a name and a delimiter: `items.peek(-3, …)`. -/
def lastName (items : List Item) : Option (Tok × Tok × Tok) :=
  match items.drop (items.length - 3) with
  | [.tok a, .tok b, .tok c] =>
    if a.action.isDelimiter ∧ b.action = .nameTag ∧ c.action.isDelimiter then some (a, b, c) else none
  | _ => none

/-- `environment_option(items)`, L132-146. -/
def environmentOption (items : List Item) : Py (List Opt × Option Dom) :=
  match lastName items with
  | some (a, b, c) => do
    let r ← option (items.take (items.length - 3))
    .ok (r.1, some (envName [a, b, c]))
  | none => do
    let r ← option items
    .ok (r.1, none)

/-- `items.peek(-4, a.Name.Builtin, a.Delimiter, a.Name.Tag, a.Delimiter)`. -/
def lastEnd (items : List Item) : Option (Tok × Tok × Tok × Tok) :=
  match items.drop (items.length - 4) with
  | [.tok e, .tok a, .tok b, .tok c] =>
    if e.action = .builtin ∧ a.action.isDelimiter ∧ b.action = .nameTag ∧ c.action.isDelimiter then some (e, a, b, c) else none
  | _ => none

/-- The `\end` command, L158-159. -/
def endNode (x : Tok × Tok × Tok × Tok) : Dom := commandNode x.1 [envName [x.2.1, x.2.2.1, x.2.2.2]]

/-- `environment(items)`, L152-166. -/
def environmentBody (items : List Item) : Py (List Dom) :=
  match lastEnd items with
  | some x => do
    let ns ← common (items.take (items.length - 4))
    .ok (ns ++ [endNode x])
  | none => common items

/-- `lily.Document(*…)`: the music nodes are given. -/
def lilyDocument (items : List Item) : Dom :=
  .node ⟨.lilyDocument, [], []⟩ (items.flatMap fun i => match i with | .music ns => ns | _ => [])

/-- The options at the start, `quickly/lang/lilypond.py` L359-361, and the other items. -/
def popOption (items : List Item) : List Opt × List Item :=
  match items with
  | .option os _ :: rest => (os, rest)
  | _ => ([], items)

/-- The contents and the tail, L362-374; without the options. -/
def lilypondBody (opts : List Opt) (items : List Item) : Py (List Opt × List Dom × List Tok) :=
  match lastEnd items with
  | some x => .ok (opts, [lilyDocument (items.take (items.length - 4)), endNode x], [])
  | none => match items.getLast? with
    | none => .error .indexError
    | some (.tok t) =>
      if t.text = ['}'] ∧ t.action = .brace then .ok (opts, [lilyDocument items.dropLast], [t])
      else .ok (opts, [lilyDocument items], [])
    | some _ => .ok (opts, [lilyDocument items], [])

/-- `latex_lilypond_environment(items)`, L349-374. -/
def lilypondEnvironment (items : List Item) : Py (List Opt × List Dom × List Tok) :=
  lilypondBody (popOption items).1 (popOption items).2

/-- A piece of the parce tree: a token or a context. -/
inductive Raw where
  | tok (t : Tok)
  | brace (items : List Raw)
  | math (items : List Raw)
  | comment (toks : List Tok)
  | option (items : List Raw)
  | envOption (items : List Raw)
  | env (items : List Raw)
  | lily (items : List Raw)
  | music (ns : List Dom)

/-- The transform of one item: first the contexts inside it. -/
def item : Raw → Py Item
  | .tok t => .ok (.tok t)
  | .brace rs => do
    let its ← go rs
    let n ← brace its
    .ok (.brace n)
  | .math rs => do
    let its ← go rs
    let n ← math its
    .ok (.node n)
  | .comment ts => .ok (.node (commentNode ts))
  | .option rs => do
    let its ← go rs
    let r ← option its
    .ok (.option r.1 r.2)
  | .envOption rs => do
    let its ← go rs
    let r ← environmentOption its
    .ok (.envOption r.1 r.2)
  | .env rs => do
    let its ← go rs
    let ns ← environmentBody its
    .ok (.env ns)
  | .lily rs => do
    let its ← go rs
    let r ← lilypondEnvironment its
    .ok (.lily r.1 r.2.1 r.2.2)
  | .music ns => .ok (.music ns)
where
  /-- All items. -/
  go : List Raw → Py (List Item)
    | [] => .ok []
    | r :: rs => do
      let i ← item r
      let is ← go rs
      .ok (i :: is)

/-- `root(items)`, `quickly/lang/latex.py` L72-74: the document. -/
def root (rs : List Raw) : Py Dom := do
  let its ← item.go rs
  let ns ← common its
  .ok (.node ⟨.document, [], []⟩ ns)

/-! ## Writing -/

/-- Where the tokens of an origin are in the document: `pos` of the first and `end` of the last one. -/
def range (l : List Tok) : Option (ℕ × ℕ) :=
  match l, l.getLast? with
  | a :: _, some b => some (a.pos, b.stop)
  | _, _ => none

/-- The elements with their places in the document, for `edit()`; nothing is modified. A node that has a head, but of which the
origin has no tokens, raises IndexError in `head_point()`, `quickly/dom/element.py` L819-825; a missing tail is handled, L848-856. -/
def placed : Dom → Py (Node.Tree Elem)
  | .node v cs =>
    if v.cls.elem.kind ≠ .plain ∧ v.head = [] then .error .indexError
    else do
      let ts ← go cs
      .ok (.node { v.cls.elem with headOrigin := range v.head, tailOrigin := range v.tail } ts)
where
  /-- The children. -/
  go : List Dom → Py (List (Node.Tree Elem))
    | [] => .ok []
    | c :: cs => do
      let t ← placed c
      let ts ← go cs
      .ok (t :: ts)

end Quickly.Tex
