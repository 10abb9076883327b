import Verif.Basic
import Mathlib.Data.Nat.Notation
import Mathlib.Data.Int.Notation

/-!
# Model of `MusicBuilder` (`quickly/lang/lilypond.py` L681-1217) and of the reading of markup
(L449-489)

The input is what *parce* gives to a transform method: a list of items, each of them a token or
the result of the transform of a sub-context.  *parce* itself is not modelled.

Simplifications.

* The dispatching on the text and the action of a token (L712-722) is not modelled: a token has a
  `kind`, the handler that is found for it.  The class a handler picks from a mapping
  (`_rest_mapping`, `_builtin_mapping`, ...) is determined by kind and text, and named `made kind`.
* An element is its class, its origin tokens and its children.  `MusicBuilder` gives the elements
  the tokens they are read from and never looks at their head values.
* A dispatcher prints a message for a token or context it does not know; that is left out.
* `next(self.items)` without an item raises `StopIteration`, which in a generator becomes a
  `RuntimeError`.
-/

namespace Quickly.Read

/-- The handler a token is dispatched to. -/
inductive Kind where
  /-- `\skip` -/
  | skip
  /-- `\after` -/
  | after
  /-- `\rest` -/
  | restMark
  | tweak
  | noBeam
  | tag
  | shape
  | vshape
  /-- a note name -/
  | pitch
  /-- the note name `q` -/
  | q
  /-- `r`, `R` or `s` -/
  | rest
  | drum
  | duration
  | direction
  | dynamic
  | articulation
  /-- `\=` -/
  | spannerId
  | spanner
  | nameType
  | tremolo
  | pipe
  | voice
  /-- `:`, `^`, `/` and `/+` in chord mode -/
  | chordMod
  | number
  | float
  | fraction
  | symbol
  | equalSign
  | lyricText
  | lyricExtender
  | lyricHyphen
  | lyricSkip
  | builtin
  | keyword
  /-- a keyword without a class or a handler -/
  | keywordUnknown
  /-- a word in markup -/
  | word
  /-- a markup command -/
  | function
  | unknown
deriving DecidableEq

/-- A token: an identification (its position in the source), its handler, and its `group`
attribute. -/
structure Tok where
  id : ℕ
  kind : Kind
  group : Option ℤ := none
deriving DecidableEq

/-- The classes of elements `MusicBuilder` creates or tests for. -/
inductive Cls where
  | comment
  | note
  | q
  | pitchedRest
  | restModifier
  | unpitched
  | duration
  | articulations
  | chordModifiers
  | direction
  | tweak
  | tag
  /-- `lily.Shape`, or its subclass `lily.VShape` -/
  | shape
  | spannerId
  | symbol
  | pitch
  | markup
  | markupWord
  | markupCommand
  /-- The class a handler picks for a token. -/
  | made (k : Kind)
  /-- Any other class, by its name. -/
  | other (name : String)
deriving DecidableEq

/-- An element: the class, the origin tokens of head and tail, and the children. -/
inductive Elem where
  | mk (cls : Cls) (head tail : List Tok) (kids : List Elem)

/-- The class of an element. -/
def Elem.cls : Elem → Cls
  | .mk c _ _ _ => c

/-- The children of an element. -/
def Elem.kids : Elem → List Elem
  | .mk _ _ _ ks => ks

/-- `elem.append(child)`. -/
def Elem.append : Elem → Elem → Elem
  | .mk c h t ks, e => .mk c h t (ks ++ [e])

/-- `elem.extend(children)`. -/
def Elem.extend : Elem → List Elem → Elem
  | .mk c h t ks, es => .mk c h t (ks ++ es)

/-- `isinstance(node, base.Comment)`. -/
def Elem.isComment (e : Elem) : Bool := decide (e.cls = .comment)

/-- The names of the contexts that have a handler, L1091-1217. -/
inductive Ctx where
  /-- chord or figure -/
  | music
  | script
  /-- string, scheme or list -/
  | string
  | identifierRef
  /-- singleline_comment or multiline_comment -/
  | comment
  /-- Any other context. -/
  | other
deriving DecidableEq

/-- An item: a token, or the result of the transform of a context. -/
inductive Item where
  | tok (t : Tok)
  /-- A context that is transformed into an element. -/
  | elem (c : Ctx) (e : Elem)
  /-- `repeat`, `lyricsto`, `lyricmode`, `drummode`, `notemode`, `chordmode` or `figuremode`. -/
  | flat (l : List Elem)
  /-- `pitch` -/
  | pitch (l : List Elem)
  /-- `chord_modifier` -/
  | modifier (l : List Elem)
  /-- `duration`: the dots and the scaling -/
  | dur (dots : List Tok) (scaling : Option Elem)
  /-- `markup`: the items of the markup -/
  | markup (l : List Item)

/-- `self.factory(cls, (token,))`. -/
def make (c : Cls) (t : Tok) : Elem := .mk c [t] [] []

/-! ## Comments -/

mutual

/-- `util.pop_comments`, `quickly/dom/util.py` L159-169: the node after popping, and the comments. -/
def popComments : Elem → Elem × List Elem
  | .mk c h t ks => (.mk c h t (popList ks).1, (popList ks).2)

/-- The `while` loop, for the list of children: `comments` has the last one first, and is reversed at
the end. -/
def popList : List Elem → List Elem × List Elem
  | [] => ([], [])
  | k :: ks =>
    if (popList ks).1.isEmpty then
      if k.isComment then ([], k :: (popList ks).2)
      else ([(popComments k).1], (popComments k).2 ++ (popList ks).2)
    else (k :: (popList ks).1, (popList ks).2)

end

/-! ## Markup -/

/-- What the reading of markup depends on: `get_markup_argument_count`, L481-489. -/
abbrev Counts := Tok → ℕ

mutual

/-- `read_markup_arguments`, L461-479: the first node it yields and the items that are left.  The
first argument is the number of items that may be read; it is always large enough. -/
def readOne (nargs : Counts) : ℕ → List Item → Option (Elem × List Item)
  | _, [] => none
  | 0, _ => none
  | n + 1, .tok t :: items =>
    if t.kind = .word then some (make .markupWord t, items)
    else if t.kind = .function then
      let r := readArgs nargs n (nargs t) items
      some (.mk .markupCommand [t] [] r.1, r.2)
    else readOne nargs n items
  | _ + 1, .elem _ e :: items => some (e, items)
  | n + 1, _ :: items => readOne nargs n items

/-- L469-476: the arguments of a markup command that has `k` arguments. -/
def readArgs (nargs : Counts) : ℕ → ℕ → List Item → List Elem × List Item
  | _, 0, items => ([], items)
  | 0, _, items => ([], items)
  | n + 1, k + 1, items =>
    match readOne nargs n items with
    | none => ([], [])
    | some (a, items') =>
      let r := readArgs nargs n (if a.isComment then k + 1 else k) items'
      (a :: r.1, r.2)

end

/-- The size of the items: an upper bound for the steps needed to read markup arguments. -/
def fuel (items : List Item) : ℕ := 2 * items.length + 2

/-- `list(read_markup_arguments(items))`, as used for a list of markup, L293-296. -/
def readAll (nargs : Counts) : ℕ → List Item → List Elem
  | 0, _ => []
  | n + 1, items =>
    match readOne nargs (fuel items) items with
    | none => []
    | some (a, items') => a :: readAll nargs n items'

/-- A token as origin. -/
def tokOf : Item → Option Tok
  | .tok t => some t
  | _ => none

/-- `create_markup`, L449-459: the Markup node, if any, and the items that are left.  `m` is the result
of the `markup` context.  Items of `m` after the first argument are lost. -/
def createMarkup (nargs : Counts) (m items : List Item) : Option Elem × List Item :=
  match readOne nargs (fuel (m.drop 1 ++ items)) (m.drop 1 ++ items) with
  | none => (none, [])
  | some (a, items') =>
    (some (.mk .markup ((m.take 1).filterMap tokOf) [] [a]),
      if items'.length ≤ items.length then items' else items)

/-! ## The builder -/

/-- The state of a `MusicBuilder`, L692-709. -/
structure St where
  music : Option Elem := none
  duration : Option (List Tok) := none
  scaling : Option Elem := none
  modifier : Option Elem := none
  articulations : Option Elem := none
  events : List Elem := []
  comments : List Elem := []

/-- L743-753: music and comments, with the duration added. -/
def withDuration (s : St) : Option Elem × List Elem :=
  match s.duration, s.music with
  | some d, some m => (some (m.append (.mk .duration d [] s.scaling.toList)), s.comments)
  | some d, none => (some (.mk .unpitched [] [] [.mk .duration d [] s.scaling.toList]), s.comments)
  | none, some m => (some (popComments m).1, (popComments m).2)
  | none, none => (none, s.comments)

/-- L755-758 and L759-763: comments, and the modifier or the articulations, are added to the music;
the comments at their end become the comments. -/
def withPart (m : Elem) (comments : List Elem) : Option Elem → Elem × List Elem
  | none => (m, comments)
  | some p => ((m.extend comments).append (popComments p).1, (popComments p).2)

/-- `isinstance(e, (lily.Tweak, lily.Tag, lily.Shape))`, L771. -/
def isPrefix (e : Elem) : Bool :=
  decide (e.cls = .tweak) || decide (e.cls = .tag) || decide (e.cls = .shape)

/-- `pending_music`, L741-773: what it yields.  The state is reset after that. -/
def pendingMusic (s : St) : List Elem :=
  let r := withDuration s
  let out :=
    match r.1 with
    | none => []
    | some m =>
      let p := withPart m r.2 s.modifier
      let a := withPart p.1 p.2 s.articulations
      a.1 :: a.2
  out ++ s.events.filter isPrefix

/-- L778-782: the articulation is added to the last event, and every event to the one before it. -/
def chain : List Elem → Elem → Elem
  | [], art => art
  | e :: es, art => e.append (chain es art)

/-- `add_articulation`, L775-791. -/
def addArticulation (s : St) (art : Elem) : St :=
  if s.music.isSome || s.duration.isSome then
    { s with
      articulations := some ((s.articulations.getD (.mk .articulations [] [] [])).append
        (chain s.events art))
      events := [] }
  else s

/-- The condition of `add_spanner_id`, `add_tweak`, `add_tag` and `add_shape`, L793-823: the last event
has the class and less than `n` children. -/
def wants (s : St) (c : Cls) (n : ℕ) : Bool :=
  match s.events.getLast? with
  | some e => decide (e.cls = c) && decide (e.kids.length < n)
  | none => false

/-- `e[-1].append(node)`. -/
def toLast (s : St) (e : Elem) : St :=
  match s.events.getLast? with
  | some l => { s with events := s.events.dropLast ++ [l.append e] }
  | none => s

/-- What a handler does: the nodes it yields, the state, and the items that are left. -/
abbrev Res := Py (List Elem × St × List Item)

/-- `yield from self.pending_music()`, and then new music. -/
def start (s : St) (m : Elem) (items : List Item) : Res :=
  .ok (pendingMusic s, { music := some m }, items)

/-- `yield from self.pending_music()`, and then other nodes. -/
def yields (s : St) (es : List Elem) (items : List Item) : Res :=
  .ok (pendingMusic s ++ es, {}, items)

/-- Nothing is yielded. -/
def silent (s : St) (items : List Item) : Res := .ok ([], s, items)

/-- `lyric_text_action`, L1027-1031: the tokens of one word, up to and including the first one that has a
negative group. -/
def lyricWord : List Item → Py (List Tok × List Item)
  | [] => .ok ([], [])
  | .tok t :: items =>
    match t.group with
    | none => .error .typeError
    | some g =>
      if g < 0 then .ok ([t], items)
      else do
        let r ← lyricWord items
        .ok (t :: r.1, r.2)
  | _ :: _ => .error .attributeError

/-- The handlers for tokens, L833-1089. -/
def token (s : St) (t : Tok) (items : List Item) : Res :=
  match t.kind with
  | .skip | .after | .rest | .lyricExtender | .lyricHyphen | .lyricSkip =>
    start s (make (.made t.kind) t) items
  | .restMark =>
    match s.music with
    | some (.mk .note h tl ks) =>
      silent { s with music := some (.mk .pitchedRest h tl ks),
                      modifier := some (make .restModifier t) } items
    | _ => silent s items
  | .tweak => silent { s with events := s.events ++ [make .tweak t] } items
  | .tag => silent { s with events := s.events ++ [make .tag t] } items
  | .shape | .vshape => silent { s with events := s.events ++ [make .shape t] } items
  | .direction => silent { s with events := s.events ++ [make .direction t] } items
  | .spannerId => silent { s with events := s.events ++ [make .spannerId t] } items
  | .noBeam | .dynamic | .articulation | .spanner =>
    silent (addArticulation s (make (.made t.kind) t)) items
  | .pitch =>
    if wants s .tweak 2 then silent (toLast s (make .symbol t)) items
    else start s (make .note t) items
  | .q =>
    if wants s .tweak 2 then silent (toLast s (make .symbol t)) items
    else start s (make .q t) items
  | .drum =>
    if wants s .tweak 2 then silent (toLast s (make .symbol t)) items
    else start s (make (.made .drum) t) items
  | .duration =>
    if s.duration.isSome || s.articulations.isSome then
      .ok (pendingMusic s, { duration := some [t] }, items)
    else silent { s with duration := some [t] } items
  | .nameType | .pipe | .voice | .fraction | .builtin | .keyword =>
    yields s [make (.made t.kind) t] items
  | .keywordUnknown => yields s [] items
  | .tremolo =>
    if t.group = some 0 then
      match items with
      | .tok d :: items' =>
        silent (addArticulation s (.mk (.made .tremolo) [t] [] [make .duration d])) items'
      | _ :: _ => .error .attributeError
      | [] => .error .runtimeError
    else silent (addArticulation s (make (.made .tremolo) t)) items
  | .chordMod =>
    if t.group = some 0 then
      match items with
      | .tok p :: items' =>
        silent (addModifier s (.mk (.made .chordMod) [t] [] [make .pitch p])) items'
      | _ :: _ => .error .attributeError
      | [] => .error .runtimeError
    else silent (addModifier s (make (.made .chordMod) t)) items
  | .number | .symbol =>
    if wants s .spannerId 1 || wants s .tweak 2 then
      silent (toLast s (make (.made t.kind) t)) items
    else silent s items
  | .float =>
    if wants s .tweak 2 then silent (toLast s (make (.made .float) t)) items
    else yields s [make (.made .float) t] items
  | .equalSign =>
    if s.events.isEmpty then yields s [make (.made .equalSign) t] items
    else silent s items
  | .lyricText =>
    if t.group.isSome then do
      let r ← lyricWord items
      start s (.mk (.made .lyricText) (t :: r.1) [] []) r.2
    else start s (make (.made .lyricText) t) items
  | .word | .function | .unknown => silent s items
where
  /-- L977-980. -/
  addModifier (s : St) (e : Elem) : St :=
    if s.music.isSome && !s.articulations.isSome then
      { s with modifier := some ((s.modifier.getD (.mk .chordModifiers [] [] [])).append e) }
    else s

/-- `self._modifier[-1].extend(obj)`, L1094. -/
def extendLast (ks : List Elem) (l : List Elem) : Py (List Elem) :=
  match ks.getLast? with
  | some k => .ok (ks.dropLast ++ [k.extend l])
  | none => .error .indexError

/-- The handlers for contexts, L1091-1217, and L723-733. -/
def context (nargs : Counts) (s : St) (i : Item) (items : List Item) : Res :=
  match i with
  | .tok _ => silent s items
  | .flat l => .ok (l, s, items)
  | .pitch l =>
    match s.music with
    | some m => silent { s with music := some (m.extend l) } items
    | none => yields s l items
  | .modifier l =>
    match s.modifier with
    | none => .error .typeError
    | some (.mk c h t ks) => do
      let ks' ← extendLast ks l
      silent { s with modifier := some (.mk c h t ks') } items
  | .dur dots scaling =>
    match s.duration with
    | none => .error .attributeError
    | some d => silent { s with duration := some (d ++ dots), scaling := scaling } items
  | .markup m =>
    match createMarkup nargs m items with
    | (none, items') => silent s items'
    | (some e, items') =>
      if s.events.isEmpty then yields s [e] items' else silent (addArticulation s e) items'
  | .elem .music e => start s e items
  | .elem .script e => silent (addArticulation s e) items
  | .elem .string e =>
    if s.events.isEmpty then yields s [e] items
    else if wants s .spannerId 1 || wants s .tweak 2 || wants s .tag 1 || wants s .shape 2 then
      silent (toLast s e) items
    else silent (addArticulation s e) items
  | .elem .identifierRef e =>
    if s.events.isEmpty then yields s [e] items else silent (addArticulation s e) items
  | .elem .comment e =>
    match s.modifier with
    | some m => silent { s with modifier := some (m.append e) } items
    | none =>
      if !s.events.isEmpty then silent (toLast s e) items
      else match s.articulations with
        | some a => silent { s with articulations := some (a.append e) } items
        | none =>
          if s.music.isNone && s.duration.isNone then .ok ([e], s, items)
          else silent { s with comments := s.comments ++ [e] } items
  | .elem .other e => yields s [e] items

/-- One round of the loop in `__iter__`, L711-735. -/
def step (nargs : Counts) (s : St) (i : Item) (items : List Item) : Res :=
  match i with
  | .tok t => token s t items
  | _ => context nargs s i items

/-- `__iter__`, L711-739: all nodes that are yielded from this state.  The first argument is the number of
items that may be read. -/
def run (nargs : Counts) : ℕ → St → List Item → Py (List Elem)
  | _, s, [] => .ok (pendingMusic s)
  | 0, _, _ => .ok []
  | n + 1, s, i :: items => do
    let r ← step nargs s i items
    let out ← run nargs n r.2.1 r.2.2
    .ok (r.1 ++ out)

/-- `list(MusicBuilder(transform, items))`. -/
def music (nargs : Counts) (items : List Item) : Py (List Elem) := run nargs items.length {} items

end Quickly.Read
