import Verif.Lily.Model
import Verif.Read.Grammar
import Mathlib.Data.List.Forall2
import Mathlib.Data.List.Chain

/-!
# What it means to read a LilyPond text

A text is a tree of tokens and contexts.  Reading it is correct if every token is in the document once,
in the same order, and every context becomes the element that represents it.  This file says how correct
contexts look and what represents them.
-/

namespace Quickly.Lily.Spec

open Quickly.Read (Tok Kind Cls Elem Ctx Item Counts)
open Quickly.Read.Spec (toks toksL itemToks itemsToks Mk Markup Phrase Correct)

variable {κ : Type}

/-! ## Tokens -/

mutual
/-- The tokens of the source, in order. -/
def rawToks : Raw → List Tok
  | .tok t => [t]
  | .ctx _ rs => rawToksL rs
  | .given _ e => toks e
def rawToksL : List Raw → List Tok
  | [] => []
  | r :: rs => rawToks r ++ rawToksL rs
end

mutual
/-- The tokens of the source, without the brace that ends a `\score` block. -/
def kept (text : Tok → String) : Raw → List Tok
  | .tok t => [t]
  | .ctx .score rs => keptScore text rs
  | .ctx _ rs => keptL text rs
  | .given _ e => toks e
def keptL (text : Tok → String) : List Raw → List Tok
  | [] => []
  | r :: rs => kept text r ++ keptL text rs
def keptScore (text : Tok → String) : List Raw → List Tok
  | [] => []
  | [.tok t] => if text t = "}" then [] else [t]
  | r :: rs => kept text r ++ keptScore text rs
end

/-- The texts that end a context that starts with one delimiter. -/
def closers : Name → List String
  | .musiclist | .lyriclist | .drumlist | .chordlist | .figurelist => ["}", ">>"]
  | .chord | .figure => [">"]
  | .figurebracket => ["]"]
  | .markuplist => ["}"]
  | .schemelily => ["#}"]
  | _ => []

mutual
/-- No context consists of the closing delimiter only, and a figure does not start with a number. -/
def Opened (e : Env κ) : Raw → Prop
  | .tok _ => True
  | .ctx n rs => (∀ t, rs = [.tok t] → e.text t ∉ closers n) ∧
      (n = .figure ∨ n = .figurebracket → ∀ t rs', rs = .tok t :: rs' → e.act t ≠ .figure) ∧ OpenedL e rs
  | .given _ _ => True
def OpenedL (e : Env κ) : List Raw → Prop
  | [] => True
  | r :: rs => Opened e r ∧ OpenedL e rs
end

/-! ## What is needed of `signatures()` and `add_argument()` -/

/-- `add_argument` does not invent tokens. -/
def Fair (e : Env κ) : Prop :=
  ∀ p n t, (toks (ofTree (e.build.conv p n))).count t ≤ (toks (ofTree n)).count t

/-- An element that takes arguments has no tail, and is itself an argument as it is. -/
structure Regular (e : Env κ) : Prop where
  tail : ∀ a : Label, e.build.asks a = true → a.2.2 = []
  conv : ∀ p n, e.build.asks n.val = true → e.build.conv p n = n

/-- The element keeps its tokens when it becomes an argument. -/
def Keeps (e : Env κ) (x : Elem) : Prop := ∀ p, toks (ofTree (e.build.conv p (toTree x))) = toks x

/-! ## Assignments -/

/-- A List, Symbol or String. -/
def NameClass (c : Cls) : Prop :=
  c = .other "List" ∨ c = .symbol ∨ c = .made .symbol ∨ c = .other "String"

/-- An equal sign. -/
def EqualClass (c : Cls) : Prop := c = .made .equalSign ∨ c = .other "EqualSign"

/-- A List has no tokens of its own. -/
def Bare : Elem → Prop
  | .mk c h t _ => c = .other "List" → h = [] ∧ t = []

/-- Something in a block: an assignment, with comments, or anything else. -/
inductive Entry where
  | assign (name : Elem) (cs : List Elem) (eq : Elem) (cs' : List Elem) (value : Elem)
  | other (x : Elem)

/-- The nodes of an entry. -/
def Entry.source : Entry → List Elem
  | .assign name cs eq cs' value => name :: (cs ++ eq :: (cs' ++ [value]))
  | .other x => [x]

/-- The parts of a name. -/
def nameParts : Elem → List Elem
  | .mk c h t ks => if c = .other "List" then ks else [.mk c h t ks]

/-- The element for an entry. -/
def Entry.elem : Entry → Elem
  | .assign name cs eq cs' value =>
    .mk (.other "Assignment") [] []
      (.mk (.other "Identifier") [] [] (nameParts name) :: (cs ++ eq :: (cs' ++ [value])))
  | .other x => x

/-- A correct entry. -/
def Entry.Ok : Entry → Prop
  | .assign name cs eq cs' value =>
    NameClass name.cls ∧ Bare name ∧ (∀ c ∈ cs, c.cls = .comment) ∧ EqualClass eq.cls ∧
      (∀ c ∈ cs', c.cls = .comment) ∧ value.cls ≠ .comment ∧ Bare value
  | .other x => ¬ NameClass x.cls

/-- The nodes are those of correct entries, and `out` are the elements; or assignments are not looked
for. -/
def Assigned (assignments : Bool) (nodes out : List Elem) : Prop :=
  if assignments then
    ∃ es : List Entry, (∀ x ∈ es, x.Ok) ∧ nodes = es.flatMap Entry.source ∧ out = es.map Entry.elem
  else out = nodes

/-! ## Lyrics -/

/-- A String, Symbol, Scheme or Markup. -/
def LyricClass (c : Cls) : Prop :=
  c = .other "String" ∨ c = .symbol ∨ c = .made .symbol ∨ c = .other "Scheme" ∨ c = .markup

/-- A syllable that is a string or markup, with a duration or not; a duration; or anything else. -/
inductive Syllable where
  | item (x : Elem) (dur : Option (List Elem))
  | dur (d : List Elem)
  | other (x : Elem)

def Syllable.source : Syllable → List Elem
  | .item x d => x :: d.toList.map (Elem.mk .unpitched [] [])
  | .dur d => [.mk .unpitched [] [] d]
  | .other x => [x]

def Syllable.elem : Syllable → Elem
  | .item x d => .mk (.other "LyricItem") [] [] (x :: d.getD [])
  | .dur d => .mk (.other "LyricItem") [] [] d
  | .other x => x

def Syllable.Ok : Syllable → Prop
  | .item x _ => LyricClass x.cls
  | .dur _ => True
  | .other x => x.cls ≠ .unpitched ∧ ¬ LyricClass x.cls

/-- A duration does not follow a string without duration. -/
def Apart : Syllable → Syllable → Prop
  | .item _ none, .dur _ => False
  | _, _ => True

/-- The nodes are those of correct syllables, and `out` are the elements; or these are no lyrics. -/
def Sung (lyrics : Bool) (nodes out : List Elem) : Prop :=
  if lyrics then
    ∃ ss : List Syllable, (∀ x ∈ ss, x.Ok) ∧ ss.IsChain Apart ∧ nodes = ss.flatMap Syllable.source ∧
      out = ss.map Syllable.elem
  else out = nodes

/-! ## Contents that are not music -/

/-- The elements for tokens in a block. -/
inductive TokenClass : Act → String → Cls → Prop
  | int (s) : TokenClass .number s (.other "Int")
  | float (s) : TokenClass .float s (.other "Float")
  | fraction (s) : TokenClass .fraction s (.other "Fraction")
  | equal (s) : TokenClass .assignment s (.other "EqualSign")
  | unit (s) : TokenClass .unit s (.other "Unit")
  | type (s) : TokenClass .nameType s .symbol
  | accepts : TokenClass .keyword "\\accepts" (.other "Accepts")
  | denies : TokenClass .keyword "\\denies" (.other "Denies")
  | name : TokenClass .keyword "\\name" (.other "Name")
  | alias : TokenClass .keyword "\\alias" (.other "Alias")
  | consists : TokenClass .keyword "\\consists" (.other "Consists")
  | remove : TokenClass .keyword "\\remove" (.other "Remove")
  | defaultchild : TokenClass .keyword "\\defaultchild" (.other "DefaultChild")

/-- Something in a block. -/
inductive Com where
  | tok (t : Tok) (c : Cls)
  | elem (c : Ctx) (x : Elem)
  | markup (m : Markup)

def Com.items : Com → List Item
  | .tok t _ => [.tok t]
  | .elem c x => [.elem c x]
  | .markup m => m.items

def Com.node : Com → Elem
  | .tok t c => .mk c [t] [] []
  | .elem _ x => x
  | .markup m => m.node

def Com.Ok (e : Env κ) : Com → Prop
  | .tok t c => TokenClass (e.act t) (e.text t) c
  | .elem _ _ => True
  | .markup m => m.Ok e.nargs

/-! ## Figures -/

/-- Something in a figure. -/
inductive Fig where
  /-- a number or `_`, with accidentals and alterations -/
  | step (t : Tok) (alts : List Tok)
  /-- a bracket, a string, a comment -/
  | elem (c : Ctx) (x : Elem)
  | markup (m : Markup)

def Fig.items : Fig → List Item
  | .step t alts => .tok t :: alts.map .tok
  | .elem c x => [.elem c x]
  | .markup m => m.items

/-- An accidental or an alteration. -/
def altNode (e : Env κ) (t : Tok) : Elem :=
  .mk (.other (if e.act t = .accidental then "FigureAccidental" else "FigureAlteration")) [t] [] []

def Fig.node (e : Env κ) : Fig → Elem
  | .step t alts =>
    .mk (.other (if e.text t = "_" then "FigureSkip" else "FigureStep")) [t] [] (alts.map (altNode e))
  | .elem _ x => x
  | .markup m => m.node

def Fig.Ok (e : Env κ) : Fig → Prop
  | .step t alts => e.act t = .figure ∧ ∀ a ∈ alts, e.act a = .accidental ∨ e.act a = .alteration
  | .elem _ _ => True
  | .markup m => m.Ok e.nargs

/-! ## Lists, pitches and chord modifiers -/

/-- A part of a list: a token or an element. -/
inductive Part where
  | tok (t : Tok)
  | elem (c : Ctx) (x : Elem)

def Part.item : Part → Item
  | .tok t => .tok t
  | .elem c x => .elem c x

/-- The element for a part of a list. -/
def Part.inList (e : Env κ) : Part → Elem
  | .tok t =>
    .mk (if e.act t = .number then .other "Int"
      else if e.act t = .separator then .other "Separator" else .symbol) [t] [] []
  | .elem _ x => x

/-- What can be after a note name. -/
inductive AfterPitch (e : Env κ) : Part → Elem → Prop
  | octave (t) : e.act t = .octave → AfterPitch e (.tok t) (.mk (.other "Octave") [t] [] [])
  | check (t) : e.act t = .octaveCheck → AfterPitch e (.tok t) (.mk (.other "OctCheck") [t] [] [])
  | accidental (t) : e.act t = .accidental → AfterPitch e (.tok t) (.mk (.other "Accidental") [t] [] [])
  | comment (c x) : AfterPitch e (.elem c x) x

/-- What can be in a chord modifier. -/
inductive Modifier where
  | qualifier (t : Tok)
  | step (t : Tok) (alt : Option Tok)
  | dot (t : Tok)
  | comment (c : Ctx) (x : Elem)

def Modifier.items : Modifier → List Item
  | .qualifier t => [.tok t]
  | .step t alt => .tok t :: alt.toList.map .tok
  | .dot t => [.tok t]
  | .comment c x => [.elem c x]

def Modifier.node : Modifier → Elem
  | .qualifier t => .mk (.other "Qualifier") [t] [] []
  | .step t alt => .mk (.other "Step") [t] [] (alt.toList.map fun a => .mk (.other "Alteration") [a] [] [])
  | .dot t => .mk (.other "Separator") [t] [] []
  | .comment _ x => x

def Modifier.Ok (e : Env κ) : Modifier → Prop
  | .qualifier t => e.act t = .symbol
  | .step t alt => e.act t = .number ∧ (t.group = some 0 ↔ alt.isSome = true)
  | .dot t => e.act t = .dot
  | .comment _ _ => True

/-! ## Contexts -/

/-- The blocks: the class, whether there is music in it, and whether there are assignments. -/
inductive Block : Name → String → String → Bool → Bool → Prop
  | bookpart : Block .book "\\bookpart" "BookPart" true false
  | book (s) : s ≠ "\\bookpart" → Block .book s "Book" true false
  | header (s) : Block .header s "Header" false true
  | paper (s) : Block .paper s "Paper" false true
  | layout (s) : Block .layout s "Layout" true true
  | midi (s) : Block .midi s "Midi" true true
  | with : Block .layoutContext "\\with" "With" true true
  | context (s) : s ≠ "\\with" → Block .layoutContext s "LayoutContext" true true
  | lines : Block .markupscore "\\score-lines" "MarkupScoreLines" true false
  | score (s) : s ≠ "\\score-lines" → Block .markupscore s "MarkupScore" true false

/-- The contexts with music that start with one delimiter: the delimiter, the class, and whether
there are lyrics. -/
inductive MusicList : Name → String → String → Bool → Prop
  | seq (n) : n ∈ [Name.musiclist, .drumlist, .chordlist, .figurelist] → MusicList n "{" "MusicList" false
  | sim (n s) : n ∈ [Name.musiclist, .drumlist, .chordlist, .figurelist] → s ≠ "{" →
      MusicList n s "SimultaneousMusicList" false
  | lyrics : MusicList .lyriclist "{" "MusicList" true
  | simLyrics (s) : s ≠ "{" → MusicList .lyriclist s "SimultaneousMusicList" true

/-- The tail is one of these texts; and if there is none, the last item does not look like a tail. -/
def Closed (text : Tok → String) (texts : List String) (before : List Item) (tail : Option Tok) : Prop :=
  match tail with
  | some z => text z ∈ texts
  | none => ∀ t, before.getLast? = some (.tok t) → text t ∉ texts

/-- The items are correct music with these nodes.  `P` is what is asked of every phrase, `K` what is asked
of every node. -/
def Music (P : Phrase → Prop) (K : Elem → Prop) (nargs : Counts) (items : List Item)
    (nodes : List Elem) : Prop :=
  ∃ ps : List Phrase, Correct nargs {} ps ∧ (∀ p ∈ ps, P p) ∧ items = ps.flatMap Phrase.items ∧
    nodes = ps.flatMap Phrase.nodes ∧ ∀ x ∈ nodes, K x

/-- The items are correct contents of a block that is not music. -/
def Common (K : Elem → Prop) (e : Env κ) (items : List Item) (nodes : List Elem) : Prop :=
  ∃ cs : List Com, (∀ c ∈ cs, c.Ok e) ∧ items = cs.flatMap Com.items ∧ nodes = cs.map Com.node ∧
    ∀ x ∈ nodes, K x

/-- One or the other. -/
def Contents (P : Phrase → Prop) (K : Elem → Prop) (e : Env κ) (music : Bool) (items : List Item)
    (nodes : List Elem) : Prop :=
  if music then Music P K e.nargs items nodes else Common K e items nodes

/-- The contents of markup contexts inside markup are flattened. -/
def markupItems (items : List Item) : List Item :=
  items.flatMap fun i => match i with
    | .markup m => m
    | i => [i]

/-- The tokens as source. -/
def raws (ts : List Tok) : List Raw := ts.map .tok

variable (P : Phrase → Prop) (K : Elem → Prop) (e : Env κ)

mutual

/-- What correct tokens and contexts are read as. -/
inductive Reads : Raw → Item → Prop
  | tok (t) : Reads (.tok t) (.tok t)
  | given (c x) : Reads (.given c x) (.elem c x)
  | block (n cls music assignments a o rs is tail nodes out) :
      Block n (e.text a) cls music assignments → ReadsL rs is →
      Contents P K e music is nodes → Assigned assignments (e.buildTree nodes) out →
      Closed e.text ["}"] (.tok a :: .tok o :: is) tail →
      Reads (.ctx n (.tok a :: .tok o :: rs ++ raws tail.toList))
        (.elem .other (.mk (.other cls) [a, o] tail.toList out))
  /-- The brace that ends a score is not recorded. -/
  | score (a o rs is tail nodes) : ReadsL rs is → Music P K e.nargs is nodes →
      (∀ t, (Item.tok a :: .tok o :: is).getLast? = some (.tok t) → e.text t ≠ "}") →
      (∀ z, tail = some z → e.text z = "}") →
      Reads (.ctx .score (.tok a :: .tok o :: rs ++ raws tail.toList))
        (.elem .other (.mk (.other "Score") [a, o] [] (e.buildTree nodes)))
  | musiclist (n cls lyrics o rs is tail nodes out) :
      MusicList n (e.text o) cls lyrics → ReadsL rs is → Music P K e.nargs is nodes →
      Sung lyrics (e.buildTree nodes) out → Closed e.text ["}", ">>"] (.tok o :: is) tail →
      Reads (.ctx n (.tok o :: rs ++ raws tail.toList))
        (.elem .other (.mk (.other cls) [o] tail.toList out))
  | chord (o rs is tail nodes) : ReadsL rs is → Music P K e.nargs is nodes →
      Closed e.text [">"] (.tok o :: is) tail →
      Reads (.ctx .chord (.tok o :: rs ++ raws tail.toList))
        (.elem .music (.mk (.other "Chord") [] []
          [.mk (.other "ChordBody") [o] tail.toList (e.buildTree nodes)]))
  | schemelily (o rs is tail nodes) : ReadsL rs is → Music P K e.nargs is nodes →
      Closed e.text ["#}"] (.tok o :: is) tail →
      Reads (.ctx .schemelily (.tok o :: rs ++ raws tail.toList))
        (.elem .other (.mk (.other "LilyPond") [o] tail.toList (e.buildTree nodes)))
  | figure (o rs is tail) (fs : List Fig) : ReadsL rs is → is = fs.flatMap Fig.items →
      (∀ f ∈ fs, f.Ok e) → e.act o = .other → Closed e.text [">"] (.tok o :: is) tail →
      Reads (.ctx .figure (.tok o :: rs ++ raws tail.toList))
        (.elem .music (.mk (.other "Figure") [] []
          [.mk (.other "FigureBody") [o] tail.toList (fs.map (Fig.node e))]))
  | figurebracket (o rs is tail) (fs : List Fig) : ReadsL rs is → is = fs.flatMap Fig.items →
      (∀ f ∈ fs, f.Ok e) → e.act o = .other → Closed e.text ["]"] (.tok o :: is) tail →
      Reads (.ctx .figurebracket (.tok o :: rs ++ raws tail.toList))
        (.elem .other (.mk (.other "FigureBracket") [o] tail.toList (fs.map (Fig.node e))))
  | inline (n rs is nodes) : n ∈ [Name.repeat, .lyricsto] → ReadsL rs is → Common (fun _ => True) e is nodes →
      Reads (.ctx n rs) (.flat nodes)
  | mode (n rs is nodes) : n ∈ [Name.lyricmode, .drummode, .chordmode, .notemode, .figuremode] →
      ReadsL rs is → Music P K e.nargs is nodes → Reads (.ctx n rs) (.flat (e.buildTree nodes))
  | fingering (t ts) : e.act t = .fingering →
      Reads (.ctx .script (raws (t :: ts))) (.elem .script (.mk (.other "Fingering") (t :: ts) [] []))
  | articulation (t ts) : e.act t ≠ .fingering →
      Reads (.ctx .script (raws (t :: ts))) (.elem .script (.mk (.other "Articulation") (t :: ts) [] []))
  | pitch (rs is) (ps : List Part) (nodes) : ReadsL rs is → is = ps.map Part.item →
      List.Forall₂ (AfterPitch e) ps nodes → Reads (.ctx .pitch rs) (.pitch nodes)
  | duration (rs dots) (scaling : Option (Ctx × Elem)) :
      ReadsL rs (dots.map .tok ++ scaling.toList.map fun p => .elem p.1 p.2) →
      (∀ d ∈ dots, e.text d = ".") → (∀ p, scaling = some p → p.2.cls = .other "DurationScaling") →
      Reads (.ctx .duration rs) (.dur dots (scaling.map Prod.snd))
  | scaling (ts) : Reads (.ctx .durationScaling (raws ts))
      (.elem .other (.mk (.other "DurationScaling") ts [] []))
  | chordModifier (rs is) (ms : List Modifier) : ReadsL rs is → is = ms.flatMap Modifier.items →
      (∀ m ∈ ms, m.Ok e) → Reads (.ctx .chordModifier rs) (.modifier (ms.map Modifier.node))
  /-- One part is not a List. -/
  | single (rs is) (p : Part) : ReadsL rs is → is = [p.item] →
      Reads (.ctx .list rs) (.elem .string (p.inList e))
  | list (rs is) (ps : List Part) : ReadsL rs is → is = ps.map Part.item → ps.length ≠ 1 →
      Reads (.ctx .list rs) (.elem .string (.mk (.other "List") [] [] (ps.map (Part.inList e))))
  | identifierRef (o rs is) (ps : List Part) : ReadsL rs is → is = ps.map Part.item →
      Reads (.ctx .identifierRef (.tok o :: rs))
        (.elem .identifierRef (.mk (.other "IdentifierRef") [o] [] (ps.map (Part.inList e))))
  | markup (rs is) : ReadsL rs is → Reads (.ctx .markup rs) (.markup (markupItems is))
  | markuplist (o rs is tail) (args : List Mk) : ReadsL rs is → is = Mk.itemsL args →
      Mk.OkL e.nargs args → Closed e.text ["}"] (.tok o :: is) tail →
      Reads (.ctx .markuplist (.tok o :: rs ++ raws tail.toList))
        (.elem .other (.mk (.other "MarkupList") [o] tail.toList (Mk.nodes args)))
  | string (ts) : Reads (.ctx .string (raws ts)) (.elem .string (.mk (.other "String") ts [] []))
  | comment (n ts) : n ∈ [Name.multilineComment, .singlelineComment] →
      Reads (.ctx n (raws ts)) (.elem .comment (.mk .comment ts [] []))

/-- The same for a list. -/
inductive ReadsL : List Raw → List Item → Prop
  | nil : ReadsL [] []
  | cons (r i rs is) : Reads r i → ReadsL rs is → ReadsL (r :: rs) (i :: is)

end

/-- What a correct text is read as. -/
def Document (rs : List Raw) (d : Elem) : Prop :=
  ∃ is nodes out, ReadsL P K e rs is ∧ Music P K e.nargs is nodes ∧ Assigned true (e.buildTree nodes) out ∧
    d = .mk (.other "Document") [] [] out

end Quickly.Lily.Spec
