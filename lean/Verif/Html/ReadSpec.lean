import Verif.Html.Model
import Verif.Edits.Model

/-!
# Html documents, and the tree that reading them should give
-/

namespace Quickly.Html.Spec

open Quickly.Text

/-- How an attribute goes on after its name. -/
inductive V where
  | none
  /-- An equal sign without a value. -/
  | eq (e : Tok)
  /-- A string in single or double quotes. -/
  | str (e : Tok) (single : Bool) (first : Tok) (mids : List Tok) (last : Tok)
  /-- A number, in lilypond-book options. -/
  | number (e n : Tok)
  /-- A number with a unit. -/
  | measure (e n u : Tok)
  /-- A style, which is not transformed. -/
  | style (e q : Tok) (toks : List Tok) (last : Tok)

/-- An attribute. -/
structure A where
  name : Tok
  value : V

/-- How a tag goes on after its name; `gt` is the last token, `>` or `/>`. -/
inductive End where
  | plain (gt : Tok)
  | attrs (as : List A) (gt : Tok)
  | options (as : List A) (gt : Tok)

/-- A piece of an Html document. -/
inductive D where
  | text (t : Tok)
  | entity (t : Tok)
  /-- A comment, a CDATA section or a processing instruction. -/
  | comment (node : Dom) (toks : List Tok)
  /-- A tag without contents, such as `<br>` or `<br/>`. -/
  | start (lt name : Tok) (e : End)
  /-- An element with contents; the three tokens of the closing tag may be missing. -/
  | elem (lt name : Tok) (e : End) (kids : List D) (close : Option (Tok × Tok × Tok))
  /-- A script or style or a doctype declaration: two tokens after the first and then the contents. -/
  | region (lt a b : Tok) (toks : List Tok) (last : Tok)
  /-- A script or style that has attributes. -/
  | regionAttrs (lt name : Tok) (as : List A) (gt : Tok) (toks : List Tok) (last : Tok)
  /-- `<lilypond …>music</lilypond>`; the closing tag is one of the nodes. -/
  | lily (lt name : Tok) (e : End) (nodes : List Dom)
  /-- `<lilypond options: music />`. -/
  | short (lt name : Tok) (as : List A) (colon : Tok) (nodes : List Dom) (gt : Tok)

/-! ## The parce tree -/

def V.raw : V → List Raw
  | .none => []
  | .eq e => [.tok e]
  | .str e single f ms l => [.tok e, .string single f (ms ++ [l])]
  | .number e n => [.tok e, .tok n]
  | .measure e n u => [.tok e, .tok n, .tok u]
  | .style e q ts l => [.tok e, .tok q, .untransformed ts l]

def A.raw (a : A) : List Raw := .tok a.name :: a.value.raw

def attrsRaw (as : List A) (gt : Tok) : List Raw := as.flatMap A.raw ++ [.tok gt]

def End.raw : End → Raw
  | .plain gt => .tok gt
  | .attrs as gt => .attrs (attrsRaw as gt)
  | .options as gt => .options (attrsRaw as gt)

def closeRaw : Option (Tok × Tok × Tok) → List Raw
  | none => []
  | some (a, b, c) => [.tok a, .tok b, .tok c]

def D.raw : D → List Raw
  | .text t => [.tok t]
  | .entity t => [.tok t]
  | .comment n ts => [.rest n ts]
  | .start lt name e => [.tok lt, .tok name, e.raw]
  | .elem lt name e kids close => [.tok lt, .tok name, e.raw, .tag (go kids ++ closeRaw close)]
  | .region lt a b ts l => [.tok lt, .tok a, .tok b, .untransformed ts l]
  | .regionAttrs lt name as gt ts l => [.tok lt, .tok name, .attrs (attrsRaw as gt), .untransformed ts l]
  | .lily lt name e ns => [.tok lt, .tok name, e.raw, .lily ns []]
  | .short lt name as colon ns gt => [.tok lt, .tok name, .options (attrsRaw as colon), .lily ns [gt]]
where
  /-- All pieces. -/
  go : List D → List Raw
    | [] => []
    | d :: ds => d.raw ++ go ds

/-! ## The actions of the tokens -/

def V.wf : V → Prop
  | .none => True
  | .eq e => e.text = ['='] ∧ e.action = .operator
  | .str e single _ _ l => (e.text = ['='] ∧ e.action = .operator) ∧ l.text = [if single then '\'' else '"']
  | .number e n => (e.text = ['='] ∧ e.action = .operator) ∧ n.action = .number ∧ n.text ≠ ['=']
  | .measure e n u => (e.text = ['='] ∧ e.action = .operator) ∧ (n.action = .number ∧ n.text ≠ ['=']) ∧ u.action = .unit ∧ u.text ≠ ['=']
  | .style e q _ _ => (e.text = ['='] ∧ e.action = .operator) ∧ q.text = ['"'] ∧ q.action = .string

def A.wf (a : A) : Prop := (a.name.action = .nameAttribute ∨ a.name.action = .name) ∧ a.name.text ≠ ['='] ∧ a.value.wf

def End.gt : End → Tok
  | .plain gt => gt
  | .attrs _ gt => gt
  | .options _ gt => gt

def End.as : End → List A
  | .plain _ => []
  | .attrs as _ => as
  | .options as _ => as

/-- The last token of a start tag. -/
def gtWf (gt : Tok) : Prop := gt.action = .delimiter ∧ gt.text ≠ ['='] ∧ gt.text ≠ [':'] ∧ gt.third = true

def End.wf (e : End) : Prop := (∀ a ∈ e.as, a.wf) ∧ gtWf e.gt

/-- The first two tokens of a start tag. -/
def ltWf (lt name : Tok) : Prop := lt.action = .delimiter ∧ ¬ '/' ∈ lt.text ∧ name.action = .nameTag

def closeWf : Option (Tok × Tok × Tok) → Prop
  | none => True
  | some (a, _, _) => a.action = .delimiter ∧ '/' ∈ a.text

def D.wf : D → Prop
  | .text t => t.action = .text
  | .entity t => t.action = .escape
  | .comment _ _ => True
  | .start lt name e => ltWf lt name ∧ e.wf
  | .elem lt name e kids close => ltWf lt name ∧ e.wf ∧ go kids ∧ closeWf close
  | .region lt a b _ _ => lt.action = .delimiter ∧
      ((a.action = .nameTag ∧ b.action = .delimiter) ∨ (a.action = .keyword ∧ b.action = .definition))
  | .regionAttrs lt name as gt _ _ => ltWf lt name ∧ (∀ a ∈ as, a.wf) ∧ gtWf gt
  | .lily lt name e _ => ltWf lt name ∧ e.wf
  | .short lt name as colon _ _ => ltWf lt name ∧ (∀ a ∈ as, a.wf) ∧ colon.action = .delimiter ∧ colon.text = [':']
where
  /-- All pieces. -/
  go : List D → Prop
    | [] => True
    | d :: ds => d.wf ∧ go ds

/-! ## The tree -/

/-- An element with its tokens. -/
def leaf (c : Cls) (t : Tok) : Dom := .node ⟨c, [t], []⟩ []

/-- A piece of a string. -/
def piece (t : Tok) : Dom := if t.action = .escape then leaf (.entityRef (t.text.drop 1).dropLast) t else leaf (.text t.text) t

def V.tree : V → List Dom
  | .none => []
  | .eq e => [leaf .equalSign e]
  | .str e single f ms l => [leaf .equalSign e, .node ⟨if single then .sqString else .dqString, [f], [l]⟩ (ms.map piece)]
  | .number e n => [leaf .equalSign e, leaf (.number n.text) n]
  | .measure e n u => [leaf .equalSign e, leaf (.number n.text) n, leaf (.unit u.text) u]
  | .style e q _ l => [leaf .equalSign e, .node ⟨.unknown, [q, l], []⟩ []]

def A.tree (a : A) : Dom := .node ⟨.attribute, [], []⟩ (leaf (.attrName a.name.text) a.name :: a.value.tree)

/-- The start tag: a single tag if there is a slash at the end. -/
def tagTree (lt name : Tok) (e : End) : Dom :=
  .node ⟨if '/' ∈ e.gt.text then .singleTag else .openTag, [lt], [e.gt]⟩ (leaf (.tagName name.text) name :: e.as.map A.tree)

def closeTree : Option (Tok × Tok × Tok) → List Dom
  | none => []
  | some (a, b, c) => [.node ⟨.closeTag, [a], [c]⟩ [leaf (.tagName b.text) b]]

/-- An element, which has no tokens of itself. -/
def element (cs : List Dom) : Dom := .node ⟨.element, [], []⟩ cs

/-- The nodes for a piece of a document; a comment has none. -/
def D.tree : D → List Dom
  | .text t => [leaf (.text t.text) t]
  | .entity t => [leaf (.entityRef (t.text.drop 1).dropLast) t]
  | .comment _ _ => []
  | .start lt name e => [element [tagTree lt name e]]
  | .elem lt name e kids close => [element (tagTree lt name e :: go kids ++ closeTree close)]
  | .region lt _ _ _ l => [.node ⟨.unknown, [lt, l], []⟩ []]
  | .regionAttrs lt _ _ _ _ l => [.node ⟨.unknown, [lt, l], []⟩ []]
  | .lily lt name e ns => [element (tagTree lt name e :: ns)]
  | .short lt name as colon ns gt =>
    [element [.node ⟨.singleTag, [lt], [gt]⟩ (leaf (.tagName name.text) name :: as.map A.tree ++ [leaf .colon colon] ++ ns)]]
where
  /-- All pieces. -/
  go : List D → List Dom
    | [] => []
    | d :: ds => d.tree ++ go ds

/-! ## The tokens -/

/-- The tokens in a tree, in order. -/
def domToks : Dom → List Tok
  | .node v cs => v.head ++ go cs ++ v.tail
where
  /-- All nodes. -/
  go : List Dom → List Tok
    | [] => []
    | c :: cs => domToks c ++ go cs

/-- All tokens of a piece of the parce tree. -/
def rawToks : Raw → List Tok
  | .tok t => [t]
  | .tag rs => go rs
  | .attrs rs => go rs
  | .options rs => go rs
  | .lily ns tail => domToks.go ns ++ tail
  | .string _ f ts => f :: ts
  | .untransformed ts l => ts ++ [l]
  | .rest _ ts => ts
where
  /-- All pieces. -/
  go : List Raw → List Tok
    | [] => []
    | r :: rs => rawToks r ++ go rs

/-- All tokens of a document. -/
def allToks (ds : List D) : List Tok := rawToks.go (D.raw.go ds)

/-- The tokens of the comments, CDATA sections and processing instructions. -/
def D.comments : D → List Tok
  | .comment _ ts => ts
  | .elem _ _ _ kids _ => go kids
  | _ => []
where
  /-- All pieces. -/
  go : List D → List Tok
    | [] => []
    | d :: ds => d.comments ++ go ds

/-- All texts in a tree have tokens, and only those. -/
def full : Dom → Prop
  | .node v cs => (match v.cls.elem.kind with
    | .plain => v.head = [] ∧ v.tail = []
    | .head => v.head ≠ [] ∧ v.tail = []
    | .block => v.head ≠ [] ∧ v.tail ≠ []) ∧ go cs
where
  /-- All nodes. -/
  go : List Dom → Prop
    | [] => True
    | c :: cs => full c ∧ go cs

/-- The LilyPond parts have all tokens. -/
def D.lilyFull : D → Prop
  | .lily _ _ _ ns => full.go ns
  | .short _ _ _ _ ns _ => full.go ns
  | .elem _ _ _ kids _ => go kids
  | _ => True
where
  /-- All pieces. -/
  go : List D → Prop
    | [] => True
    | d :: ds => d.lilyFull ∧ go ds

/-- The place of a token. -/
def place (t : Tok) : ℕ × ℕ := (t.pos, t.stop)

/-- The context of a document: it starts and ends with its tokens. -/
def context (ds : List D) : Edits.Context :=
  ⟨((allToks ds).head?.map Tok.pos).getD 0, ((allToks ds).getLast?.map Tok.stop).getD 0, (allToks ds).map place⟩

end Quickly.Html.Spec
