import Verif.Read.Model
import Verif.Build.Model
import Verif.Group.Model

/-!
# Model of `LilyPondTransform` (`quickly/lang/lilypond.py` L77-656)

The input is the tree that *parce* makes of a LilyPond text: tokens and contexts.  A transform method
is called for every context, with the items: the tokens, and the results for the contexts inside it.
Reading music from the items is the model of C63, `build_tree` that of C39, and grouping assignments and
lyrics that of C55; here they are put together.

Simplifications.

* A token has a text and an action, given by `Env`; `Act` has the actions the methods ask for.
* A Scheme expression is read by another transform (C69); it is a `given` element here.
* In the head of an element only tokens are recorded; a context there would be an error in the grammar
  of *parce*.
* Where a method would put `None` or a list between elements (never with the grammar of *parce*),
  the model raises `AttributeError` at once.
* `signatures()` and `add_argument()` of the element classes are the `build` part of `Env`.
* The class that `MusicBuilder` picks for a token is named `made kind` in C63; other classes have their
  own name.
* The methods for LilyPond inside HTML and LaTeX are left out (see C76 and C79).
-/

namespace Quickly.Lily

open Quickly.Read (Tok Cls Elem Ctx Item Counts make createMarkup readAll tokOf)

/-- The actions of tokens that the transform methods look at. -/
inductive Act where
  /-- `Literal.Number.Fingering` -/
  | fingering
  /-- `Text.Music.Pitch.Octave` -/
  | octave
  /-- `Text.Music.Pitch.Octave.OctaveCheck` -/
  | octaveCheck
  /-- `Text.Music.Pitch.Accidental` -/
  | accidental
  /-- `Text.Music.Pitch.Figure` -/
  | figure
  /-- `Literal.Character.Alteration` -/
  | alteration
  /-- `Name.Symbol` -/
  | symbol
  /-- `Number` -/
  | number
  | float
  | fraction
  /-- `Operator.Assignment` -/
  | assignment
  | keyword
  /-- `Name.Builtin.Unit` -/
  | unit
  /-- `Name.Type` -/
  | nameType
  /-- `Separator` -/
  | separator
  /-- `Separator.Dot` -/
  | dot
  | other
deriving DecidableEq

/-- The label of a node for `build_tree`: class, head and tail. -/
abbrev Label := Cls × List Tok × List Tok

/-- What reading depends on. -/
structure Env (κ : Type) where
  text : Tok → String
  act : Tok → Act
  /-- `get_markup_argument_count` -/
  nargs : Counts
  build : Build.Env Label κ

/-- The contexts, by the name of their lexicon. -/
inductive Name where
  | book | score | header | paper | layout | midi | layoutContext
  | musiclist | chord | «repeat» | script | pitch | duration | durationScaling
  | lyricmode | lyricsto | lyriclist | drummode | drumlist | chordmode | chordlist | chordModifier
  | notemode | figuremode | figurelist | figure | figurebracket
  | list | identifierRef | markup | markuplist | markupscore | schemelily
  | string | multilineComment | singlelineComment
deriving DecidableEq

/-- A tree of tokens and contexts. -/
inductive Raw where
  | tok (t : Tok)
  | ctx (n : Name) (items : List Raw)
  /-- A context that is read by another transform: `scheme`. -/
  | given (c : Ctx) (e : Elem)

variable {κ : Type}

/-! ## Nodes as trees -/

mutual
/-- An element as tree. -/
def toTree : Elem → Node.Tree Label
  | .mk c h t ks => .node (c, h, t) (toTrees ks)
def toTrees : List Elem → List (Node.Tree Label)
  | [] => []
  | k :: ks => toTree k :: toTrees ks
end

mutual
/-- A tree as element. -/
def ofTree : Node.Tree Label → Elem
  | .node a ks => .mk a.1 a.2.1 a.2.2 (ofTrees ks)
def ofTrees : List (Node.Tree Label) → List Elem
  | [] => []
  | k :: ks => ofTree k :: ofTrees ks
end

/-- `element.build_tree(nodes, ignore_type=base.Comment)`. -/
def Env.buildTree (e : Env κ) (nodes : List Elem) : List Elem :=
  ofTrees (e.build.buildTree (toTrees nodes))

/-- `create_music`, L527-529. -/
def Env.createMusic (e : Env κ) (items : List Item) : Py (List Elem) := do
  let nodes ← Read.music e.nargs items
  .ok (e.buildTree nodes)

/-! ## Assignments and lyrics -/

/-- The kind of node for `handle_assignments`, L394-429. -/
def groupNode (e : Elem) : Group.Node Elem :=
  match e.cls with
  | .other "List" => .list e.kids
  | .symbol => .symbol e
  | .made .symbol => .symbol e
  | .other "String" => .string e
  | .made .equalSign => .equalSign e
  | .other "EqualSign" => .equalSign e
  | .comment => .comment e
  | _ => .other e

/-- A node, back as element. -/
def ungroup : Group.Node Elem → Elem
  | .list items => .mk (.other "List") [] [] items
  | .symbol e => e
  | .string e => e
  | .equalSign e => e
  | .comment e => e
  | .other e => e

/-- `lily.Assignment(identifier, *rest)`, L414-419. -/
def assignment (name : List Elem) (rest : List (Group.Node Elem)) : Elem :=
  .mk (.other "Assignment") [] [] (.mk (.other "Identifier") [] [] name :: rest.map ungroup)

/-- What `handle_assignments` yields, as element. -/
def outElem : Group.Out Elem → Elem
  | .node n => ungroup n
  | .assignList items rest => assignment items rest
  | .assignName first rest => assignment [ungroup first] rest

/-- `handle_assignments`, L394-429. -/
def handleAssignments (nodes : List Elem) : List Elem :=
  (Group.handleAssignments (nodes.map groupNode)).map outElem

/-- The kind of node for `postprocess_lyriclist`, L531-555. -/
def lyricNode (e : Elem) : Group.LNode Elem :=
  match e.cls with
  | .unpitched => .unpitched e.kids
  | .other "String" => .lyric e
  | .symbol => .lyric e
  | .made .symbol => .lyric e
  | .other "Scheme" => .lyric e
  | .markup => .lyric e
  | _ => .other e

/-- What `postprocess_lyriclist` yields, as element. -/
def lyricElem : Group.LOut Elem → Elem
  | .item children => .mk (.other "LyricItem") [] [] children
  | .node e => e

/-- `postprocess_lyriclist`, L531-555. -/
def postprocessLyrics (nodes : List Elem) : List Elem :=
  (Group.postprocessLyrics (nodes.map lyricNode)).map lyricElem

/-! ## Helpers -/

/-- The tokens in items, as origin. -/
def origin (items : List Item) : List Tok := items.filterMap tokOf

/-- `(items.pop(),) if items[-1] in closers else ()`: the items that are left, and the tail. -/
def Env.popTail (e : Env κ) (closers : List String) (items : List Item) :
    Py (List Item × List Tok) :=
  match items.getLast? with
  | none => .error .indexError
  | some (.tok t) => .ok (if e.text t ∈ closers then (items.dropLast, [t]) else (items, []))
  | some _ => .ok (items, [])

/-- `items[0] == text`. -/
def Env.firstIs (e : Env κ) (s : String) (items : List Item) : Py Bool :=
  match items with
  | [] => .error .indexError
  | .tok t :: _ => .ok (e.text t == s)
  | _ :: _ => .ok false

/-- `_keyword`, L623-656: the class for a keyword. -/
def keywordClass (s : String) : Option Cls :=
  if s = "\\accepts" then some (.other "Accepts")
  else if s = "\\denies" then some (.other "Denies")
  else if s = "\\name" then some (.other "Name")
  else if s = "\\alias" then some (.other "Alias")
  else if s = "\\consists" then some (.other "Consists")
  else if s = "\\remove" then some (.other "Remove")
  else if s = "\\defaultchild" then some (.other "DefaultChild")
  else none

/-- `_action`, L567-606: the class for a token. -/
def Env.actionClass (e : Env κ) (t : Tok) : Option Cls :=
  match e.act t with
  | .number => some (.other "Int")
  | .float => some (.other "Float")
  | .fraction => some (.other "Fraction")
  | .assignment => some (.other "EqualSign")
  | .keyword => keywordClass (e.text t)
  | .unit => some (.other "Unit")
  | .nameType => some .symbol
  | _ => none

/-- `_id`, L562-576: the class for a token in a list. -/
def Env.idClass (e : Env κ) (t : Tok) : Cls :=
  match e.act t with
  | .number => .other "Int"
  | .separator => .other "Separator"
  | _ => .symbol

/-- `_pitch`, L608-621: the class for a token after a note name. -/
def Env.pitchClass (e : Env κ) (t : Tok) : Option Cls :=
  match e.act t with
  | .octave => some (.other "Octave")
  | .octaveCheck => some (.other "OctCheck")
  | .accidental => some (.other "Accidental")
  | _ => none

/-- `common`, L377-392.  The first argument is the number of items that may be read. -/
def Env.common (e : Env κ) : ℕ → List Item → List Elem
  | _, [] => []
  | 0, _ => []
  | n + 1, .tok t :: items => ((e.actionClass t).map fun c => make c t).toList ++ e.common n items
  | n + 1, .elem _ x :: items => x :: e.common n items
  | n + 1, .markup m :: items =>
    (createMarkup e.nargs m items).1.toList ++ e.common n (createMarkup e.nargs m items).2
  | n + 1, _ :: items => e.common n items

/-- `create_figure`, L496-525; `step` is the node that is not yielded yet.  The first argument is the
number of items that may be read. -/
def Env.figures (e : Env κ) : ℕ → Option Elem → List Item → List Elem
  | _, step, [] => step.toList
  | 0, step, _ => step.toList
  | n + 1, step, .tok t :: items =>
    match e.act t with
    | .figure =>
      step.toList ++ e.figures n
        (some (make (.other (if e.text t = "_" then "FigureSkip" else "FigureStep")) t)) items
    | .accidental => e.figures n (step.map fun s => s.append (make (.other "FigureAccidental") t)) items
    | .alteration => e.figures n (step.map fun s => s.append (make (.other "FigureAlteration") t)) items
    | _ => e.figures n step items
  | n + 1, step, .markup m :: items =>
    step.toList ++ e.figures n (createMarkup e.nargs m items).1 (createMarkup e.nargs m items).2
  | n + 1, step, .elem _ x :: items => step.toList ++ e.figures n (some x) items
  | n + 1, step, _ :: items => e.figures n step items

/-- The contents of a block, L445-448. -/
def Env.blockNodes (e : Env κ) (music : Bool) (items : List Item) : Py (List Elem) :=
  if music then e.createMusic items else .ok (e.buildTree (e.common items.length items))

/-- `create_block`, L431-451. -/
def Env.createBlock (e : Env κ) (cls : Cls) (music assignments : Bool) (items : List Item) : Py Item := do
  let r ← e.popTail ["}"] items
  let nodes ← e.blockNodes music (r.1.drop 2)
  .ok (.elem .other (.mk cls (origin (r.1.take 2)) r.2
    (if assignments then handleAssignments nodes else nodes)))

/-- `musiclist`, L131-136: class, head, tail and the children. -/
def Env.musiclist (e : Env κ) (items : List Item) : Py (Cls × List Tok × List Tok × List Elem) := do
  let r ← e.popTail ["}", ">>"] items
  let seq ← e.firstIs "{" r.1
  let nodes ← e.createMusic (r.1.drop 1)
  .ok (.other (if seq then "MusicList" else "SimultaneousMusicList"), origin (items.take 1), r.2, nodes)

/-- `chord_modifier`, L215-234. -/
def Env.modifiers (e : Env κ) : List Item → Py (List Elem)
  | [] => .ok []
  | .tok t :: items =>
    if e.act t = .symbol then do
      let r ← e.modifiers items
      .ok (make (.other "Qualifier") t :: r)
    else if e.act t = .number then
      if t.group = some 0 then
        match items with
        | .tok a :: items => do
          let r ← e.modifiers items
          .ok (.mk (.other "Step") [t] [] [make (.other "Alteration") a] :: r)
        | _ :: _ => .error .attributeError
        | [] => .error .runtimeError
      else do
        let r ← e.modifiers items
        .ok (make (.other "Step") t :: r)
    else if e.act t = .dot then do
      let r ← e.modifiers items
      .ok (make (.other "Separator") t :: r)
    else e.modifiers items
  | .elem _ x :: items => do
    let r ← e.modifiers items
    .ok (x :: r)
  | _ :: _ => .error .attributeError

/-- `_list_nodes`, L261-267. -/
def Env.listNodes (e : Env κ) : List Item → Py (List Elem)
  | [] => .ok []
  | .tok t :: items => do
    let r ← e.listNodes items
    .ok (make (e.idClass t) t :: r)
  | .elem _ x :: items => do
    let r ← e.listNodes items
    .ok (x :: r)
  | _ :: _ => .error .attributeError

/-- `pitch`, L155-158. -/
def Env.pitchNodes (e : Env κ) : List Item → Py (List Elem)
  | [] => .ok []
  | .tok t :: items =>
    match e.pitchClass t with
    | none => .error .attributeError
    | some c => do
      let r ← e.pitchNodes items
      .ok (make c t :: r)
  | .elem _ x :: items => do
    let r ← e.pitchNodes items
    .ok (x :: r)
  | _ :: _ => .error .attributeError

/-- `duration`, L160-174: the dots and the scaling. -/
def Env.durationParts (e : Env κ) : List Item → List Tok × Option Elem
  | [] => ([], none)
  | .tok t :: items =>
    if e.text t = "." then (t :: (e.durationParts items).1, (e.durationParts items).2)
    else e.durationParts items
  | .elem _ x :: items =>
    if x.cls = .other "DurationScaling" then
      ((e.durationParts items).1, some ((e.durationParts items).2.getD x))
    else e.durationParts items
  | _ :: items => e.durationParts items

/-- `markup`, L282-290: the markup contexts inside are flattened. -/
def flatten : List Item → List Item
  | [] => []
  | .markup m :: items => m ++ flatten items
  | i :: items => i :: flatten items

/-! ## The transform methods -/

/-- `book`, `layout_context` and `markupscore`: the class depends on the first token. -/
def Env.either (e : Env κ) (command yes no : String) (items : List Item) : Py Cls := do
  let b ← e.firstIs command items
  .ok (.other (if b then yes else no))

/-- A delimited context, as in `chord`, `figure`, `figurebracket`, `markuplist` and `schemelily`: the
head, the items that are left and the tail. -/
def Env.delimited (e : Env κ) (closer : String) (items : List Item) :
    Py (List Tok × List Item × List Tok) := do
  let r ← e.popTail [closer] items
  .ok (origin (items.take 1), r.1, r.2)

/-- The transform method for a context, L99-319. -/
def Env.method (e : Env κ) (n : Name) (items : List Item) : Py Item :=
  match n with
  | .book => do
    let c ← e.either "\\bookpart" "BookPart" "Book" items
    e.createBlock c true false items
  | .score => do
    let r ← e.popTail ["}"] items
    e.createBlock (.other "Score") true false r.1
  | .header => e.createBlock (.other "Header") false true items
  | .paper => e.createBlock (.other "Paper") false true items
  | .layout => e.createBlock (.other "Layout") true true items
  | .midi => e.createBlock (.other "Midi") true true items
  | .layoutContext => do
    let c ← e.either "\\with" "With" "LayoutContext" items
    e.createBlock c true true items
  | .musiclist | .drumlist | .chordlist | .figurelist => do
    let r ← e.musiclist items
    .ok (.elem .other (.mk r.1 r.2.1 r.2.2.1 r.2.2.2))
  | .lyriclist => do
    let r ← e.musiclist items
    .ok (.elem .other (.mk r.1 r.2.1 r.2.2.1 (postprocessLyrics r.2.2.2)))
  | .chord => do
    let r ← e.delimited ">" items
    let nodes ← e.createMusic (r.2.1.drop 1)
    .ok (.elem .music (.mk (.other "Chord") [] [] [.mk (.other "ChordBody") r.1 r.2.2 nodes]))
  | .repeat | .lyricsto => .ok (.flat (e.common items.length items))
  | .lyricmode | .drummode | .chordmode | .notemode | .figuremode => do
    let nodes ← e.createMusic items
    .ok (.flat nodes)
  | .script =>
    match items with
    | [] => .error .indexError
    | .tok t :: _ =>
      .ok (.elem .script (.mk (.other (if e.act t = .fingering then "Fingering" else "Articulation"))
        (origin items) [] []))
    | _ :: _ => .error .attributeError
  | .pitch => do
    let nodes ← e.pitchNodes items
    .ok (.pitch nodes)
  | .duration => .ok (.dur (e.durationParts items).1 (e.durationParts items).2)
  | .durationScaling => .ok (.elem .other (.mk (.other "DurationScaling") (origin items) [] []))
  | .chordModifier => do
    let nodes ← e.modifiers items
    .ok (.modifier nodes)
  | .figure => do
    let r ← e.delimited ">" items
    .ok (.elem .music (.mk (.other "Figure") [] []
      [.mk (.other "FigureBody") r.1 r.2.2 (e.figures r.2.1.length none r.2.1)]))
  | .figurebracket => do
    let r ← e.delimited "]" items
    .ok (.elem .other (.mk (.other "FigureBracket") r.1 r.2.2 (e.figures r.2.1.length none r.2.1)))
  | .list => do
    let nodes ← e.listNodes items
    match nodes with
    | [x] => .ok (.elem .string x)
    | _ => .ok (.elem .string (.mk (.other "List") [] [] nodes))
  | .identifierRef => do
    let nodes ← e.listNodes (items.drop 1)
    .ok (.elem .identifierRef (.mk (.other "IdentifierRef") (origin (items.take 1)) [] nodes))
  | .markup => .ok (.markup (flatten items))
  | .markuplist => do
    let r ← e.delimited "}" items
    .ok (.elem .other (.mk (.other "MarkupList") r.1 r.2.2
      (readAll e.nargs (r.2.1.drop 1).length (r.2.1.drop 1))))
  | .markupscore => do
    let c ← e.either "\\score-lines" "MarkupScoreLines" "MarkupScore" items
    e.createBlock c true false items
  | .schemelily => do
    let r ← e.delimited "#}" items
    let nodes ← e.createMusic (r.2.1.drop 1)
    .ok (.elem .other (.mk (.other "LilyPond") r.1 r.2.2 nodes))
  | .string => .ok (.elem .string (.mk (.other "String") (origin items) [] []))
  | .multilineComment | .singlelineComment => .ok (.elem .comment (.mk .comment (origin items) [] []))

mutual
/-- The result for a token or a context. -/
def Env.item (e : Env κ) : Raw → Py Item
  | .tok t => .ok (.tok t)
  | .given c x => .ok (.elem c x)
  | .ctx n rs => do
    let items ← e.items rs
    e.method n items
/-- The items for a list of tokens and contexts. -/
def Env.items (e : Env κ) : List Raw → Py (List Item)
  | [] => .ok []
  | r :: rs => do
    let i ← e.item r
    let is ← e.items rs
    .ok (i :: is)
end

/-- `root`, L95-97: the Document for a text. -/
def Env.document (e : Env κ) (rs : List Raw) : Py Elem := do
  let items ← e.items rs
  let nodes ← e.createMusic items
  .ok (.mk (.other "Document") [] [] (handleAssignments nodes))

end Quickly.Lily
