import Verif.Text.Model

/-!
# Model of Html elements, `quickly/dom/htm.py`, and of reading Html, `quickly/lang/html.py`
-/

namespace Quickly.Html

open Quickly.Node Quickly.Text

/-! ## Elements -/

/-- A token: what the transform looks at of its action, its text, and whether it is the last of a group of three
(`group == -2`). -/
inductive Action where
  | text          -- `Text` and `Whitespace`
  | escape        -- `Escape` and `String.Escape`
  | delimiter
  | nameTag       -- `Name.Tag`
  | keyword
  | definition    -- `Name.Tag.Definition`
  | nameAttribute -- `Name.Attribute`
  | name
  | unit
  | number
  | string        -- `String`, of an attribute that is not transformed
  | stringText    -- `String.Double` and `String.Single`
  | operator
deriving DecidableEq

/-- A token. -/
structure Tok where
  action : Action
  text : Str
  pos : ℕ := 0
  third : Bool := false
deriving DecidableEq

/-- `token.end`. -/
def Tok.stop (t : Tok) : ℕ := t.pos + t.text.length

/-- The classes of `quickly/dom/htm.py` that are modelled, with the head value of those that have one (L165-360);
`unknown` is `base.Unknown`, `other` stands for elements of other modules (such as LilyPond music) with what they write. -/
inductive Cls where
  | element
  | text (head : Str)
  | entityRef (head : Str)
  | cdata (head : Str)
  | sqString
  | dqString
  | number (head : Str)
  | unit (head : Str)
  | openTag
  | closeTag
  | singleTag
  | tagName (head : Str)
  | attribute
  | attrName (head : Str)
  | equalSign
  | colon
  | unknown
  | other (head : Str)

/-- `html.escape(s)` for one character. -/
def escChar (c : Char) : Str :=
  if c = '&' then ['&', 'a', 'm', 'p', ';']
  else if c = '<' then ['&', 'l', 't', ';']
  else if c = '>' then ['&', 'g', 't', ';']
  else if c = '"' then ['&', 'q', 'u', 'o', 't', ';']
  else if c = '\'' then ['&', '#', 'x', '2', '7', ';']
  else [c]

/-- `html.escape(s)` of the Python library: the ampersand first, then the others, so every character is replaced once. -/
def escape (s : Str) : Str := s.flatMap escChar

/-- `text.replace(']]>', ']]>]]&gt;<[CDATA[')`, L242. -/
def replaceCData : Str → Str
  | ']' :: ']' :: '>' :: r => "]]>]]&gt;<[CDATA[".toList ++ replaceCData r
  | c :: r => c :: replaceCData r
  | [] => []

/-- What the elements write, and their spacing: `write_head()`, `head`, `tail` and `space_between`, L165-360. -/
def Cls.elem : Cls → Elem
  | .element | .attribute => { kind := .plain }
  | .text s => { kind := .head, head := escape s }                                     -- L208-209
  | .entityRef s => { kind := .head, head := ['&'] ++ s ++ [';'] }                     -- L226-227
  | .cdata s => { kind := .head, head := "<[CDATA[".toList ++ replaceCData s ++ "]]>".toList } -- L240-243
  | .sqString => { kind := .block, head := ['\''], tail := ['\''] }
  | .dqString => { kind := .block, head := ['"'], tail := ['"'] }
  | .number s | .unit s | .tagName s | .attrName s | .other s => { kind := .head, head := s }
  | .openTag => { kind := .block, head := ['<'], tail := ['>'], sp := { between := [' '] } }
  | .closeTag => { kind := .block, head := ['<', '/'], tail := ['>'], sp := { between := [' '] } }
  | .singleTag => { kind := .block, head := ['<'], tail := ['/', '>'], sp := { between := [' '] } }
  | .equalSign => { kind := .head, head := ['='] }
  | .colon => { kind := .head, head := [':'] }
  | .unknown => { kind := .head }

/-- A node: its class and its head and tail origin (no tokens: no origin). -/
structure Val where
  cls : Cls
  head : List Tok := []
  tail : List Tok := []

/-- A tree of Html elements. -/
abbrev Dom := Node.Tree Val

/-- The elements for writing; the origin is of no importance for that. -/
def elems : Dom → Node.Tree Elem
  | .node v cs => .node v.cls.elem (go cs)
where
  /-- The children. -/
  go : List Dom → List (Node.Tree Elem)
    | [] => []
    | c :: cs => elems c :: go cs

/-- Where the tokens of an origin are in the document: `pos` of the first and `end` of the last one. -/
def range (l : List Tok) : Option (ℕ × ℕ) :=
  match l, l.getLast? with
  | a :: _, some b => some (a.pos, b.stop)
  | _, _ => none

/-- The elements with their places in the document, for `edit()`; nothing is modified. -/
def placed : Dom → Node.Tree Elem
  | .node v cs => .node { v.cls.elem with headOrigin := range v.head, tailOrigin := range v.tail } (go cs)
where
  /-- The children. -/
  go : List Dom → List (Node.Tree Elem)
    | [] => []
    | c :: cs => placed c :: go cs

/-- `write()`. None of these classes has its own `concat_space`, but `Document`. -/
def write (t : Dom) : Str := Text.write defaultConcat (elems t)

/-- `Element.to_plaintext(entity_resolver)`, L172-195, with a resolver that returns text (one that returns nodes is not modelled);
`none` is the default resolver, `unescape` is `html.unescape`. -/
def toPlaintext (unescape : Str → Str) (resolver : Option (Str → Str)) : Dom → Str
  | .node _ cs => go resolver cs
where
  /-- `''.join(map(to_text, self))`; a child element is asked without the resolver, L185-186. -/
  go (resolver : Option (Str → Str)) : List Dom → Str
    | [] => []
    | .node v cs :: rest => (match v.cls with
      | .element => toPlaintext unescape none (.node v cs)
      | .text s => s
      | .entityRef s => match resolver with
        | some f => f s
        | none => unescape (['&'] ++ s ++ [';'])
      | _ => []) ++ go resolver rest

/-! ## The element constructor -/

/-- A new element. -/
def new (c : Cls) (cs : List Dom) : Dom := .node { cls := c } cs

/-- An argument: a string or a node. -/
inductive Arg where
  | str (s : Str)
  | node (t : Dom)

/-- The attribute for a keyword argument, L412-413. -/
def attrNode (a : Str × Option Str) : Dom := match a.2 with
  | some v => new .attribute [new (.attrName a.1) [], new .equalSign [], new .dqString [new (.text v) []]]
  | none => new .attribute [new (.attrName a.1) []]

/-- The child node for an argument, L417. -/
def Arg.dom : Arg → Dom
  | .str s => new (.text s) []
  | .node t => t

/-- `m.name(*children, **attrs)`, L409-425. -/
def make (name : Str) (children : List Arg) (attrs : List (Str × Option Str)) : Dom :=
  match children with
  | c :: cs =>
    new .element ([new .openTag (new (.tagName name) [] :: attrs.map attrNode)] ++ (c :: cs).map Arg.dom ++
      [new .closeTag [new (.tagName name) []]])
  | [] => new .element [new .singleTag (new (.tagName name) [] :: attrs.map attrNode)]

/-! ## Reading -/

/-- An item the transform gets: a token, or a context with the object the transform made of it. -/
inductive Item where
  | tok (t : Tok)
  /-- `tag`. -/
  | tag (nodes : List Dom)
  /-- `attrs`. -/
  | attrs (nodes : List Dom) (tail : List Tok)
  /-- `lilypond_book_options`. -/
  | options (nodes : List Dom) (tail : List Tok)
  /-- `html_lilypond_tag`. -/
  | lily (nodes : List Dom) (tail : List Tok)
  /-- `dqstring` or `sqstring`. -/
  | string (node : Dom)
  /-- A context that is not transformed, with its last token. -/
  | untransformed (last : Tok)
  /-- `comment`, `cdata` or `processing_instruction`, with the node. -/
  | rest (node : Dom)

/-- `factory(cls, head_origin, tail_origin, *children)`, `quickly/lang/html.py` L96-105. -/
def factory (c : Cls) (head tail : List Tok) (cs : List Dom) : Dom := .node ⟨c, head, tail⟩ cs

/-- `_action(t.action, t)`, L286-296, for the tokens in a string. -/
def stringItem (t : Tok) : Dom :=
  if t.action = .escape then factory (.entityRef (t.text.drop 1).dropLast) [t] [] [] else factory (.text t.text) [t] [] []

/-- `dqstring(items)` and `sqstring(items)`, L138-150; all items are tokens, there is at least one. -/
def readString (c : Cls) (quote : Str) (first : Tok) (rest : List Tok) : Dom :=
  let items := first :: rest
  if (items.getLast?.map Tok.text) = some quote then
    factory c [first] (items.getLast?.toList) ((items.dropLast.drop 1).map stringItem)
  else factory c [first] [] (rest.map stringItem)

/-- `attrs[-1].append(node)`. -/
def appendLast : List Dom → Dom → List Dom
  | [], _ => []
  | [.node v cs], n => [.node v (cs ++ [n])]
  | a :: b :: as, n => a :: appendLast (b :: as) n

/-- `len(attrs[-1])`, zero if there are no attributes. -/
def lastLen (attrs : List Dom) : ℕ :=
  match attrs.getLast? with
  | some (.node _ cs) => cs.length
  | none => 0

/-- `lilypond_book_options(items)`, L243-284, and `attrs(items)`, L120-128. A context that is not a string,
other than after a quote, does not occur; here it is skipped. -/
def readAttrs : List Dom → List Item → List Dom × List Tok
  | attrs, [] => (attrs, [])
  | attrs, .tok t :: items =>
    if t.action = .nameAttribute then
      readAttrs (attrs ++ [new .attribute [factory (.attrName t.text) [t] [] []]]) items
    else if t.text = ['='] then
      readAttrs (if attrs ≠ [] ∧ lastLen attrs = 1 then appendLast attrs (factory .equalSign [t] [] []) else attrs) items
    else if t.action = .delimiter then (attrs, [t])
    else if t.text = ['"'] ∧ t.action = .string then
      match items with
      | .untransformed l :: items =>
        readAttrs (if attrs ≠ [] ∧ lastLen attrs > 1 then appendLast attrs (factory .unknown [t, l] [] []) else attrs) items
      | items => readAttrs attrs items
    else if t.action = .number then
      readAttrs (if attrs ≠ [] ∧ lastLen attrs > 1 then appendLast attrs (factory (.number t.text) [t] [] []) else attrs) items
    else if t.action = .unit then
      readAttrs (if attrs ≠ [] ∧ lastLen attrs > 2 then appendLast attrs (factory (.unit t.text) [t] [] []) else attrs) items
    else if t.action = .name then
      readAttrs (attrs ++ [new .attribute [factory (.attrName t.text) [t] [] []]]) items
    else readAttrs attrs items
  | attrs, .string n :: items =>
    readAttrs (if attrs ≠ [] ∧ lastLen attrs = 2 then appendLast attrs n else attrs) items
  | attrs, _ :: items => readAttrs attrs items

/-- `nodes[-1].extend(children)`, L236-239; without nodes it would raise IndexError. -/
def extendLast : List Dom → List Dom → Py (List Dom)
  | [], _ => .error .indexError
  | [.node v cs], ns => .ok [.node v (cs ++ ns)]
  | a :: b :: as, ns => (extendLast (b :: as) ns).map (a :: ·)

/-- The tokens in front of a context that is not transformed, L190-192. -/
def isUnknown : List Item → Option Tok
  | .tok a :: .attrs _ _ :: .untransformed l :: _ => if a.action = .nameTag then some l else none
  | .tok a :: .tok b :: .untransformed l :: _ =>
    if (a.action = .nameTag ∧ b.action = .delimiter) ∨ (a.action = .keyword ∧ b.action = .definition) then some l else none
  | _ => none

/-- `'/' in text`. -/
def slash (s : Str) : Bool := s.contains '/'

/-- `cls = htm.SingleTag if tail_origin and '/' in tail_origin[0].text else htm.OpenTag`, L218 and L232. -/
def tagClass (tail : List Tok) : Cls :=
  match tail with
  | t :: _ => if slash t.text then .singleTag else .openTag
  | [] => .openTag

/-- The text of the item `items[i+1]` as head of a `TagName`; a context there (which does not happen) is not
modelled. -/
def tagName (i : Item) : Dom :=
  match i with
  | .tok t => factory (.tagName t.text) [t] [] []
  | _ => factory (.tagName []) [] [] []

/-- `tag(items)`, L173-241. The number of items is at most `fuel`. -/
def readTag : ℕ → List Dom → List Item → Py (List Dom)
  | 0, nodes, _ => .ok nodes
  | _ + 1, nodes, [] => .ok nodes
  | fuel + 1, nodes, .tok t :: items =>
    if t.action = .text then readTag fuel (nodes ++ [factory (.text t.text) [t] [] []]) items
    else if t.action = .escape then
      readTag fuel (nodes ++ [factory (.entityRef (t.text.drop 1).dropLast) [t] [] []]) items
    else if t.action = .delimiter then
      match isUnknown items with
      | some l => readTag fuel (nodes ++ [factory .unknown [t, l] [] []]) (items.drop 3)
      | none => match items with
        | i1 :: i2 :: rest =>
          if slash t.text then
            readTag fuel (nodes ++ [factory .closeTag [t] (match i2 with | .tok c => [c] | _ => []) [tagName i1]]) rest
          else match i2 with
            | .tok c =>
              if c.third then
                readTag fuel (nodes ++ [new .element [factory (if slash c.text then .singleTag else .openTag) [t] [c] [tagName i1]]]) rest
              else readTag fuel nodes rest
            | .attrs as tail => readTag fuel (nodes ++ [new .element [factory (tagClass tail) [t] tail (tagName i1 :: as)]]) rest
            | .options as tail =>
              match rest with
              | .lily objs tail' :: rest' =>
                if (tail.head?.map Tok.text) = some [':'] then
                  readTag fuel (nodes ++ [new .element
                    [factory .singleTag [t] tail' (tagName i1 :: as ++ [factory .colon tail [] []] ++ objs)]]) rest'
                else readTag fuel (nodes ++ [new .element [factory (tagClass tail) [t] tail (tagName i1 :: as)]]) rest
              | _ => readTag fuel (nodes ++ [new .element [factory (tagClass tail) [t] tail (tagName i1 :: as)]]) rest
            | _ => readTag fuel nodes rest
        | _ => readTag fuel nodes (items.drop 2)
    else readTag fuel nodes items
  | fuel + 1, nodes, .tag ns :: items => do
    let nodes ← extendLast nodes ns
    readTag fuel nodes items
  | fuel + 1, nodes, .lily ns _ :: items => do
    let nodes ← extendLast nodes ns
    readTag fuel nodes items
  | fuel + 1, nodes, _ :: items => readTag fuel nodes items

/-- `tag(items)`. -/
def tag (items : List Item) : Py (List Dom) := readTag items.length [] items

/-- A piece of the parce tree: a token or a context. Of the contexts of other languages the nodes that their transform makes
are given. -/
inductive Raw where
  | tok (t : Tok)
  | tag (items : List Raw)
  | attrs (items : List Raw)
  | options (items : List Raw)
  /-- `html_lilypond_tag`, with the nodes and the tail origin; all tokens are in the nodes. -/
  | lily (nodes : List Dom) (tail : List Tok)
  /-- `dqstring` or `sqstring`; the first token is the quote. -/
  | string (single : Bool) (first : Tok) (rest : List Tok)
  /-- A context that is not transformed: its tokens but the last, and the last. -/
  | untransformed (toks : List Tok) (last : Tok)
  /-- `comment`, `cdata` or `processing_instruction`. -/
  | rest (node : Dom) (toks : List Tok)

/-- The transform of one item: first the contexts inside it. -/
def item : Raw → Py Item
  | .tok t => .ok (.tok t)
  | .tag rs => do
    let its ← go rs
    let nodes ← tag its
    .ok (.tag nodes)
  | .attrs rs => do
    let its ← go rs
    .ok (.attrs (readAttrs [] its).1 (readAttrs [] its).2)
  | .options rs => do
    let its ← go rs
    .ok (.options (readAttrs [] its).1 (readAttrs [] its).2)
  | .lily ns tail => .ok (.lily ns tail)
  | .string true f ts => .ok (.string (readString .sqString ['\''] f ts))
  | .string false f ts => .ok (.string (readString .dqString ['"'] f ts))
  | .untransformed _ l => .ok (.untransformed l)
  | .rest n _ => .ok (.rest n)
where
  /-- All items. -/
  go : List Raw → Py (List Item)
    | [] => .ok []
    | r :: rs => do
      let i ← item r
      let is ← go rs
      .ok (i :: is)

/-- `root(items)`, L115-118: the document. Its class is written here as that of an element: it has no text and no spacing. -/
def root (rs : List Raw) : Py Dom := do
  let its ← item.go rs
  let nodes ← tag its
  .ok (new .element nodes)

end Quickly.Html
