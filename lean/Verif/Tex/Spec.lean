import Verif.Tex.Model
import Verif.Edits.Whole

/-!
# LaTeX documents, and the tree that reading them should give
-/

namespace Quickly.Tex.Spec

open Quickly.Text Quickly.Node

/-- The braces with the name of an environment. -/
abbrev Name := Tok × Tok × Tok

/-- A `\end` token, and the name of the environment. -/
abbrev End := Tok × Name

/-- A piece of a LaTeX document. -/
inductive D where
  /-- Text, of one or more tokens. -/
  | text (t : Tok) (ts : List Tok)
  /-- `{ … }`; the last brace may be missing. -/
  | brace (op : Tok) (kids : List D) (cl : Option Tok)
  /-- Math; the end may be missing. -/
  | math (m : Math) (op : Tok) (kids : List D) (cl : Option Tok)
  | comment (t : Tok) (ts : List Tok)
  /-- `[ … ]`, only in a command or an environment. -/
  | option (op : Tok) (kids : List D) (cl : Tok)
  /-- A command with options and maybe an argument in braces. -/
  | command (t : Tok) (opts : List D) (arg : List D)
  /-- `\begin{name}`, or `\begin` with options and maybe a name, then the contents; `\end{name}` may be missing. -/
  | env (t : Tok) (opts : List D) (name : Option Name) (kids : List D) (stop : Option End)
  /-- The same with LilyPond music, which can have options at the start. -/
  | lilyEnv (t : Tok) (opts : List D) (name : Option Name) (opts' : List D) (music : List Dom) (stop : Option End)
  /-- `\lilypond [options] { music }`. -/
  | lilypond (t : Tok) (opts : List D) (op : Tok) (music : List Dom) (cl : Option Tok)
  /-- `\lilypond [options]` where the music has not been written yet. -/
  | lilyStart (t : Tok) (opts : List D)

/-! ## The parce tree -/

def Name.raw (n : Name) : List Raw := [.tok n.1, .tok n.2.1, .tok n.2.2]

def nameRaw : Option Name → List Raw
  | none => []
  | some n => n.raw

def endRaw : Option End → List Raw
  | none => []
  | some e => .tok e.1 :: Name.raw e.2

def tokRaw : Option Tok → List Raw
  | none => []
  | some t => [.tok t]

/-- LilyPond music; no music at all is no item. -/
def musicRaw (ns : List Dom) : List Raw := if ns.isEmpty then [] else [.music ns]

/-- The options of an environment: the context comes after the first `[`, and it has the name at the end; or there is only the
name. -/
def headRaw (os : List Raw) (name : Option Name) : List Raw :=
  match os with
  | [] => nameRaw name
  | o :: os => [o, .envOption (os ++ nameRaw name)]

/-- The options of a command: the context comes after the first `[`. -/
def optsRaw (os : List Raw) : List Raw :=
  match os with
  | [] => []
  | o :: os => [o, .option os]

/-- The options of `\lilypond`, and the brace: it is at the end of the context of the options. -/
def shortRaw (os : List Raw) (op : Tok) : List Raw :=
  match os with
  | [] => [.tok op]
  | o :: os => [o, .option (os ++ [.tok op])]

def ctxRaw (f : List Raw → Raw) (rs : List Raw) : List Raw := if rs.isEmpty then [] else [f rs]

/-- The items of a piece. -/
def D.raw : D → List Raw
  | .text t ts => .tok t :: ts.map .tok
  | .brace op kids cl => [.brace (.tok op :: (go kids ++ tokRaw cl))]
  | .math _ op kids cl => [.math (.tok op :: (go kids ++ tokRaw cl))]
  | .comment t ts => [.comment (t :: ts)]
  | .option op kids cl => .tok op :: (go kids ++ [.tok cl])
  | .command t opts arg => .tok t :: (optsRaw (go opts) ++ go arg)
  | .env t opts name kids stop => .tok t :: (headRaw (go opts) name ++ [.env (go kids ++ endRaw stop)])
  | .lilyEnv t opts name opts' music stop =>
    .tok t :: (headRaw (go opts) name ++ [.lily (ctxRaw .option (go opts') ++ musicRaw music ++ endRaw stop)])
  | .lilypond t opts op music cl => .tok t :: (shortRaw (go opts) op ++ [.lily (musicRaw music ++ tokRaw cl)])
  | .lilyStart t opts => .tok t :: optsRaw (go opts)
where
  /-- All pieces. -/
  go : List D → List Raw
    | [] => []
    | d :: ds => d.raw ++ go ds

/-! ## The tree -/

/-- The name between the braces. -/
def Name.tree (n : Name) : Dom := .node ⟨.envName (some n.2.1.text), [n.1, n.2.1, n.2.2], []⟩ []

def cmdTree (t : Tok) (cs : List Dom) : Dom := .node ⟨.command (t.text.drop 1), [t], []⟩ cs

def End.tree (e : End) : Dom := cmdTree e.1 [Name.tree e.2]

def musicTree (ns : List Dom) : Dom := .node ⟨.lilyDocument, [], []⟩ ns

/-- The node of a piece. -/
def D.tree : D → Dom
  | .text t ts => .node ⟨.text ((t :: ts).flatMap Tok.text), t :: ts, []⟩ []
  | .brace op kids cl => .node ⟨.brace, [op], cl.toList⟩ (go kids)
  | .math m op kids cl => .node ⟨.math m, [op], cl.toList⟩ (go kids)
  | .comment t ts => .node ⟨.comment (ts.flatMap Tok.text), t :: ts, []⟩ []
  | .option op kids cl => .node ⟨.option, [op], [cl]⟩ (go kids)
  | .command t opts arg => cmdTree t (go opts ++ go arg)
  | .env t opts name kids stop =>
    .node ⟨.environment, [], []⟩ (cmdTree t (go opts ++ name.toList.map Name.tree) :: (go kids ++ stop.toList.map End.tree))
  | .lilyEnv t opts name opts' music stop =>
    .node ⟨.environment, [], []⟩
      (cmdTree t (go opts ++ name.toList.map Name.tree ++ go opts') :: musicTree music :: stop.toList.map End.tree)
  | .lilypond t opts op music cl => cmdTree t (go opts ++ [.node ⟨.brace, [op], cl.toList⟩ [musicTree music]])
  | .lilyStart t opts => cmdTree t (go opts)
where
  /-- All pieces. -/
  go : List D → List Dom
    | [] => []
    | d :: ds => d.tree :: go ds

/-- The tree of a document. -/
def docTree (ds : List D) : Dom := .node ⟨.document, [], []⟩ (D.tree.go ds)

/-! ## Which pieces there are -/

def D.isOption : D → Bool
  | .option _ _ _ => true
  | _ => false

def D.isBrace : D → Bool
  | .brace _ _ _ => true
  | _ => false

def D.isText : D → Bool
  | .text _ _ => true
  | _ => false

/-- A command without an argument: a brace after it would be its argument. -/
def D.open : D → Bool
  | .command _ _ [] => true
  | _ => false

/-- What may come after a piece in the same list. -/
def follows (d e : D) : Bool := !(d.isText && e.isText) && !(d.open && e.isBrace)

/-- The pieces of a list may come after each other. -/
def chain : List D → Bool
  | [] => true
  | [_] => true
  | d :: e :: ds => follows d e && chain (e :: ds)

/-- Contents: no options, and the pieces may come after each other. -/
def contents (ds : List D) : Prop := chain ds = true ∧ ∀ d ∈ ds, d.isOption = false

/-- Options. -/
def options (ds : List D) : Prop := ∀ d ∈ ds, d.isOption = true

def Name.wf (n : Name) : Prop :=
  n.1.action.isDelimiter ∧ n.1.text = ['{'] ∧ n.2.1.action = .nameTag ∧ n.2.1.text ∉ [[], ['{'], ['}'], ['{', '}'], [']']] ∧
    n.2.2.action.isDelimiter ∧ n.2.2.text = ['}']

def End.wf (e : End) : Prop := e.1.action = .builtin ∧ Name.wf e.2

/-- Texts that end something. -/
def enders : List Str := [[']'], ['}'], ['$'], ['$', '$'], ['\\', ')'], ['\\', ']']]

/-- How math starts and ends. -/
def delimiters : Math → String × String
  | .inlineParen => ("\\(", "\\)")
  | .inlineDollar => ("$", "$")
  | .displayBracket => ("\\[", "\\]")
  | .displayDollar => ("$$", "$$")

/-- The tokens have the actions they should have. Text that is just `]` or ends a brace or math early is not text; what is
between two options is not there. -/
def D.wf : D → Prop
  | .text t ts => ∀ x ∈ t :: ts, x.action = .text ∧ x.text ∉ enders
  | .brace op kids cl => op.text = ['{'] ∧ (all kids ∧ contents kids) ∧ ∀ t ∈ cl, t.text = ['}']
  | .math m op kids cl => op.text = (delimiters m).1.toList ∧ (all kids ∧ contents kids) ∧
      ∀ t ∈ cl, t.text = (delimiters m).2.toList
  | .comment _ _ => True
  | .option op kids cl => op.action = .bracket ∧ op.text = ['['] ∧ (all kids ∧ contents kids) ∧ cl.action = .bracket ∧ cl.text = [']']
  | .command t opts arg =>
    t.action = .command ∧ t.text ∉ enders ∧ (all opts ∧ options opts) ∧
      (all arg ∧ contents arg) ∧ arg.length ≤ 1 ∧ ∀ d ∈ arg, d.isBrace = true
  | .env t opts name kids stop =>
    t.action = .builtin ∧ t.text = "\\begin".toList ∧ (all opts ∧ options opts) ∧ (opts = [] → name.isSome) ∧ (∀ n ∈ name, n.wf) ∧
      (all kids ∧ contents kids) ∧ (∀ e ∈ stop, e.wf)
  | .lilyEnv t opts name opts' music stop =>
    t.action = .builtin ∧ t.text = "\\begin".toList ∧ (all opts ∧ options opts) ∧ (opts = [] → name.isSome) ∧ (∀ n ∈ name, n.wf) ∧
      (all opts' ∧ options opts') ∧ (∀ e ∈ stop, e.wf) ∧ (music ≠ [] ∨ stop.isSome)
  | .lilypond t opts op music cl =>
    t.action = .builtin ∧ t.text = "\\lilypond".toList ∧ (all opts ∧ options opts) ∧ op.action = .brace ∧ op.text = ['{'] ∧
      (∀ t ∈ cl, t.action = .brace ∧ t.text = ['}']) ∧
      (music ≠ [] ∨ cl.isSome)
  | .lilyStart t opts => t.action = .builtin ∧ t.text = "\\lilypond".toList ∧ (all opts ∧ options opts) ∧ opts ≠ []
where
  /-- All pieces. -/
  all : List D → Prop
    | [] => True
    | d :: ds => d.wf ∧ all ds

/-- The contents of a document, a brace and so on. -/
def body (ds : List D) : Prop := D.wf.all ds ∧ contents ds

/-! ## Tokens -/

/-- The tokens of a tree, in order. -/
def domToks : Dom → List Tok
  | .node v cs => v.head ++ go cs ++ v.tail
where
  /-- All nodes. -/
  go : List Dom → List Tok
    | [] => []
    | c :: cs => domToks c ++ go cs

/-- The tokens of a parce tree, in order. -/
def rawToks : Raw → List Tok
  | .tok t => [t]
  | .brace rs => go rs
  | .math rs => go rs
  | .comment ts => ts
  | .option rs => go rs
  | .envOption rs => go rs
  | .env rs => go rs
  | .lily rs => go rs
  | .music ns => domToks.go ns
where
  /-- All items. -/
  go : List Raw → List Tok
    | [] => []
    | r :: rs => rawToks r ++ go rs

/-- Position and end. -/
def place (t : Tok) : Edits.Tok := (t.pos, t.stop)

/-- All tokens of a document. -/
def allToks (ds : List D) : List Tok := rawToks.go (D.raw.go ds)

/-- Every text of the tree has its tokens: nothing is missing. -/
def full : Dom → Prop
  | .node v cs => (match v.cls.elem.kind with
    | .plain => v.head = [] ∧ v.tail = []
    | .head => v.head ≠ [] ∧ v.tail = []
    | .block => v.head ≠ [] ∧ v.tail ≠ []) ∧ go cs
where
  /-- All nodes. -/
  go : List Dom → Prop
    | [] => True
    | c :: cs => full c ∧ go cs

/-- No end is missing. -/
def D.complete : D → Prop
  | .text _ _ => True
  | .brace _ kids cl => go kids ∧ cl.isSome
  | .math _ _ kids cl => go kids ∧ cl.isSome
  | .comment _ _ => True
  | .option _ kids _ => go kids
  | .command _ opts arg => go opts ∧ go arg
  | .env _ opts _ kids _ => go opts ∧ go kids
  | .lilyEnv _ opts _ opts' music _ => go opts ∧ go opts' ∧ full.go music
  | .lilypond _ opts _ music cl => go opts ∧ full.go music ∧ cl.isSome
  | .lilyStart _ opts => go opts
where
  /-- All pieces. -/
  go : List D → Prop
    | [] => True
    | d :: ds => d.complete ∧ go ds

/-! ## What `edit()` inserts -/

/-- Comments and environments ask for a newline after them, `quickly/dom/tex.py` L104, L142. -/
def asks : Cls → Bool
  | .comment _ => true
  | .environment => true
  | _ => false

/-- Mark the last one. -/
def markLast : List (Tok × Bool) → List (Tok × Bool)
  | [] => []
  | [x] => [(x.1, true)]
  | x :: y :: l => x :: markLast (y :: l)

/-- The tokens of a tree in order, each with whether a newline is asked for after it: the last token of a comment, and that of the last child of an environment. -/
def flags : Dom → List (Tok × Bool)
  | .node v cs => (if asks v.cls && cs.isEmpty then markLast (v.head.map (·, false)) else v.head.map (·, false)) ++
      go (asks v.cls) cs ++ v.tail.map (·, false)
where
  /-- All children. -/
  go (ask : Bool) : List Dom → List (Tok × Bool)
    | [] => []
    | c :: cs => (if ask && cs.isEmpty then markLast (flags c) else flags c) ++ go ask cs

/-- A newline between two tokens if it is asked for and there is nothing between them. -/
def newlines : List (Tok × Bool) → List Edits.Edit
  | [] => []
  | [_] => []
  | x :: y :: l => (if x.2 = true ∧ x.1.stop = y.1.pos then [(y.1.pos, y.1.pos, ['\n'])] else []) ++ newlines (y :: l)

end Quickly.Tex.Spec
