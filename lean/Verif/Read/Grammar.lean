import Verif.Read.Spec

/-!
# Correct music

This file says, independently of `MusicBuilder`, how correct music looks as a list of items, and
which nodes represent it.  A `Sound` is a note, rest, chord, lyric word etc. with everything that
belongs to it; a `Phrase` is a sound or something between sounds.
-/

namespace Quickly.Read.Spec

/-! ## Markup -/

/-- A markup expression. -/
inductive Mk where
  | word (t : Tok)
  /-- A command with its arguments (and comments in between). -/
  | cmd (t : Tok) (args : List Mk)
  /-- A string, a list between braces, a Scheme expression, a comment, ... -/
  | elem (c : Ctx) (e : Elem)

mutual

def Mk.items : Mk → List Item
  | .word t => [.tok t]
  | .cmd t args => .tok t :: Mk.itemsL args
  | .elem c e => [.elem c e]

def Mk.itemsL : List Mk → List Item
  | [] => []
  | a :: as => a.items ++ Mk.itemsL as

end

mutual

def Mk.node : Mk → Elem
  | .word t => .mk .markupWord [t] [] []
  | .cmd t args => .mk .markupCommand [t] [] (Mk.nodes args)
  | .elem _ e => e

def Mk.nodes : List Mk → List Elem
  | [] => []
  | a :: as => a.node :: Mk.nodes as

end

/-- A comment. -/
def Mk.isComment : Mk → Bool
  | .elem _ e => e.isComment
  | _ => false

mutual

/-- Every command has as many arguments as it needs, and comments only before and between them. -/
def Mk.Ok (nargs : Counts) : Mk → Prop
  | .word t => t.kind = .word
  | .cmd t args => t.kind = .function ∧ Mk.OkL nargs args ∧
      (args.filter fun a => !a.isComment).length = nargs t ∧
      (∀ a, args.getLast? = some a → a.isComment = false)
  | .elem _ _ => True

def Mk.OkL (nargs : Counts) : List Mk → Prop
  | [] => True
  | a :: as => a.Ok nargs ∧ Mk.OkL nargs as

end

/-- A complete markup: the command, its argument, and how many items of the argument are in the
`markup` context; the other ones follow it. -/
structure Markup where
  command : Tok
  arg : Mk
  split : ℕ

def Markup.items (m : Markup) : List Item :=
  .markup (.tok m.command :: m.arg.items.take m.split) :: m.arg.items.drop m.split

def Markup.node (m : Markup) : Elem := .mk .markup [m.command] [] [m.arg.node]

/-- The argument is a markup expression, and not a comment. -/
def Markup.Ok (nargs : Counts) (m : Markup) : Prop := m.arg.Ok nargs ∧ m.arg.isComment = false

/-! ## Articulations -/

/-- An argument of a tweak or of a spanner id. -/
inductive Arg where
  | tok (t : Tok)
  | elem (e : Elem)

def Arg.item : Arg → Item
  | .tok t => .tok t
  | .elem e => .elem .string e

/-- The node of an argument: a note name is just a symbol here. -/
def Arg.node : Arg → Elem
  | .tok t =>
    .mk (if t.kind = .pitch ∨ t.kind = .q ∨ t.kind = .drum then .symbol else .made t.kind) [t] [] []
  | .elem e => e

/-- An argument of `\tweak`. -/
def Arg.ForTweak : Arg → Prop
  | .tok t => t.kind ∈ [Kind.pitch, .q, .drum, .number, .symbol, .float]
  | .elem _ => True

/-- An argument of `\=`. -/
def Arg.ForSpanner : Arg → Prop
  | .tok t => t.kind ∈ [Kind.number, .symbol]
  | .elem _ => True

/-- What can be in front of an articulation. -/
inductive Ev where
  | direction (t : Tok)
  | tweak (t : Tok) (a b : Arg)
  | tag (t : Tok) (a : Elem)
  | shape (t : Tok) (a b : Elem)
  | spannerId (t : Tok) (a : Arg)

def Ev.items : Ev → List Item
  | .direction t => [.tok t]
  | .tweak t a b => [.tok t, a.item, b.item]
  | .tag t a => [.tok t, .elem .string a]
  | .shape t a b => [.tok t, .elem .string a, .elem .string b]
  | .spannerId t a => [.tok t, a.item]

def Ev.node : Ev → Elem
  | .direction t => .mk .direction [t] [] []
  | .tweak t a b => .mk .tweak [t] [] [a.node, b.node]
  | .tag t a => .mk .tag [t] [] [a]
  | .shape t a b => .mk .shape [t] [] [a, b]
  | .spannerId t a => .mk .spannerId [t] [] [a.node]

def Ev.Ok : Ev → Prop
  | .direction t => t.kind = .direction
  | .tweak t a b => t.kind = .tweak ∧ a.ForTweak ∧ b.ForTweak
  | .tag t _ => t.kind = .tag
  | .shape t _ _ => t.kind = .shape ∨ t.kind = .vshape
  | .spannerId t a => t.kind = .spannerId ∧ a.ForSpanner

/-- An articulation. -/
inductive Art where
  /-- A dynamic, slur, tie, `\noBeam`, `:`, ... -/
  | tok (t : Tok)
  /-- A tremolo with its duration -/
  | tremolo (t d : Tok)
  /-- A shorthand like `-.`, or a fingering -/
  | script (e : Elem)
  /-- A string or a Scheme expression -/
  | text (e : Elem)
  /-- A variable -/
  | ident (e : Elem)
  | markup (m : Markup)

def Art.items : Art → List Item
  | .tok t => [.tok t]
  | .tremolo t d => [.tok t, .tok d]
  | .script e => [.elem .script e]
  | .text e => [.elem .string e]
  | .ident e => [.elem .identifierRef e]
  | .markup m => m.items

def Art.node : Art → Elem
  | .tok t => .mk (.made t.kind) [t] [] []
  | .tremolo t d => .mk (.made .tremolo) [t] [] [.mk .duration [d] [] []]
  | .script e => e
  | .text e => e
  | .ident e => e
  | .markup m => m.node

/-- Strings, variables and markup need a direction or something else in front of them. -/
def Art.Ok (nargs : Counts) (evs : List Ev) : Art → Prop
  | .tok t => t.kind ∈ [Kind.noBeam, .dynamic, .articulation, .spanner] ∨
      (t.kind = .tremolo ∧ t.group ≠ some 0)
  | .tremolo t _ => t.kind = .tremolo ∧ t.group = some 0
  | .script _ => True
  | .text _ => evs ≠ []
  | .ident _ => evs ≠ []
  | .markup m => evs ≠ [] ∧ m.Ok nargs

/-- An articulation with what is in front of it, or a comment. -/
inductive ArtItem where
  | art (evs : List Ev) (a : Art)
  | comment (e : Elem)

def ArtItem.items : ArtItem → List Item
  | .art evs a => evs.flatMap Ev.items ++ a.items
  | .comment e => [.elem .comment e]

/-- Every element contains the next one. -/
def nest : List Ev → Elem → Elem
  | [], a => a
  | ev :: evs, a => ev.node.append (nest evs a)

def ArtItem.node : ArtItem → Elem
  | .art evs a => nest evs a.node
  | .comment e => e

def ArtItem.Ok (nargs : Counts) : ArtItem → Prop
  | .art evs a => (∀ ev ∈ evs, ev.Ok) ∧ a.Ok nargs evs
  | .comment e => e.isComment = true

/-! ## Sounds -/

/-- What a sound starts with. -/
inductive Start where
  /-- A note, rest, skip, drum note, lyric hyphen, ... -/
  | tok (t : Tok)
  /-- A lyric word that consists of more tokens -/
  | word (t : Tok) (more : List Tok) (last : Tok)
  /-- A chord or a figure -/
  | elem (e : Elem)

def Start.items : Start → List Item
  | .tok t => [.tok t]
  | .word t more last => .tok t :: (more.map .tok ++ [.tok last])
  | .elem e => [.elem .music e]

/-- The class for a token that starts a sound. -/
def soundClass (k : Kind) : Cls :=
  if k = .pitch then .note else if k = .q then .q else .made k

def Start.node : Start → Elem
  | .tok t => .mk (soundClass t.kind) [t] [] []
  | .word t more last => .mk (.made .lyricText) (t :: (more ++ [last])) [] []
  | .elem e => e

def Start.Ok : Start → Prop
  | .tok t => t.kind ∈ [Kind.pitch, .q, .drum, .skip, .after, .rest, .lyricExtender, .lyricHyphen,
        .lyricSkip] ∨ (t.kind = .lyricText ∧ t.group = none)
  | .word t more last => t.kind = .lyricText ∧ t.group.isSome = true ∧
      (∀ u ∈ more, ∃ g : ℤ, u.group = some g ∧ 0 ≤ g) ∧ ∃ g : ℤ, last.group = some g ∧ g < 0
  | .elem (.mk _ _ tail _) => tail = []    -- the body of a chord or a figure has a tail

/-- A duration: comments before it, the token, and the dots and the scaling. -/
structure Dur where
  before : List Elem := []
  tok : Tok
  rest : Option (List Tok × Option Elem) := none

def comments (l : List Elem) : List Item := l.map (.elem .comment)

def Dur.items (d : Dur) : List Item :=
  comments d.before ++ .tok d.tok ::
    match d.rest with
    | none => []
    | some r => [.dur r.1 r.2]

def Dur.node (d : Dur) : Elem :=
  match d.rest with
  | none => .mk .duration [d.tok] [] []
  | some r => .mk .duration (d.tok :: r.1) [] r.2.toList

/-- A chord modifier: the separator, the pitch of an inversion, and the steps. -/
structure ChordMod where
  sep : Tok
  pitch : Option Tok := none
  steps : Option (List Elem) := none

def ChordMod.items (c : ChordMod) : List Item :=
  .tok c.sep :: ((c.pitch.toList.map .tok) ++ (c.steps.toList.map .modifier))

def ChordMod.node (c : ChordMod) : Elem :=
  .mk (.made .chordMod) [c.sep] []
    ((c.pitch.toList.map fun p => .mk .pitch [p] [] []) ++ c.steps.getD [])

def ChordMod.Ok (c : ChordMod) : Prop :=
  c.sep.kind = .chordMod ∧ (c.sep.group = some 0 ↔ c.pitch.isSome = true)

/-- What can be between the duration and the articulations. -/
inductive Mods where
  /-- `\rest` -/
  | rest (t : Tok)
  | chord (first : ChordMod) (more : List ChordMod)

def Mods.items : Mods → List Item
  | .rest t => [.tok t]
  | .chord c cs => c.items ++ cs.flatMap ChordMod.items

def Mods.node : Mods → Elem
  | .rest t => .mk .restModifier [t] [] []
  | .chord c cs => .mk .chordModifiers [] [] (c.node :: cs.map ChordMod.node)

/-- A note, rest, chord, lyric word, ..., or only a duration, with everything that belongs to it. -/
structure Sound where
  start : Option Start
  /-- Octave, accidental and octave check, and comments after that. -/
  pitch : Option (List Elem × List Elem) := none
  dur : Option Dur := none
  /-- Comments after the duration. -/
  durComments : List Elem := []
  mods : Option Mods := none
  /-- Comments after the modifiers. -/
  modComments : List Elem := []
  arts : List ArtItem := []
  /-- Comments after the articulations. -/
  artComments : List Elem := []

/-- The items of a sound. -/
def Sound.items (s : Sound) : List Item :=
  (s.start.map Start.items).getD [] ++ (s.pitch.toList.map fun p => .pitch (p.1 ++ p.2)) ++
    (s.dur.map Dur.items).getD [] ++ comments s.durComments ++
    (s.mods.map Mods.items).getD [] ++ comments s.modComments ++
    s.arts.flatMap ArtItem.items ++ comments s.artComments

/-- A note with `\rest` is a PitchedRest. -/
def Sound.base (s : Sound) : Elem :=
  match s.start, s.mods with
  | some (.tok t), some (.rest _) => .mk .pitchedRest [t] [] []
  | some st, _ => st.node
  | none, _ => .mk .unpitched [] [] []

/-- The comments before the modifiers, the articulations or the end. -/
def Sound.comments0 (s : Sound) : List Elem :=
  match s.dur with
  | some d => d.before ++ s.durComments
  | none => (s.pitch.map Prod.snd).getD []

/-- The comments before the articulations or the end. -/
def Sound.comments1 (s : Sound) : List Elem :=
  if s.mods.isSome then s.modComments else s.comments0

/-- The comments at the end. -/
def Sound.comments2 (s : Sound) : List Elem :=
  if s.arts.isEmpty then s.comments1 else s.artComments

/-- The children of the node: pitch, duration, modifiers and articulations, with the comments between
them; a comment that was before the duration comes after it. -/
def Sound.children (s : Sound) : List Elem :=
  (s.pitch.map Prod.fst).getD [] ++
    (match s.dur with
     | some d => (s.pitch.map Prod.snd).getD [] ++ [d.node]
     | none => []) ++
    (match s.mods with
     | some m => s.comments0 ++ [m.node]
     | none => []) ++
    (if s.arts.isEmpty then [] else s.comments1 ++ [.mk .articulations [] [] (s.arts.map ArtItem.node)])

/-- The nodes for a sound: one node, followed by comments. -/
def Sound.nodes (s : Sound) : List Elem :=
  s.base.extend s.children :: s.comments2

/-- The element does not end with a comment, and the last child does not, and so on. -/
inductive Settled : Elem → Prop where
  | leaf (c : Cls) (h t : List Tok) : Settled (.mk c h t [])
  | last (c : Cls) (h t : List Tok) (ks : List Elem) (k : Elem) :
      k.isComment = false → Settled k → Settled (.mk c h t (ks ++ [k]))

def AllComments (l : List Elem) : Prop := ∀ e ∈ l, e.isComment = true

/-- A sound that is correct LilyPond, with comments only where they are kept. -/
structure Sound.Ok (nargs : Counts) (s : Sound) : Prop where
  start : ∀ st, s.start = some st → st.Ok
  /-- There is a duration if nothing else starts the sound. -/
  unpitched : s.start = none → (∃ d, s.dur = some d ∧ d.before = []) ∧ s.pitch = none ∧ s.mods = none
  pitchComments : ∀ p, s.pitch = some p → AllComments p.2
  /-- Without a duration, a comment can only be in the `pitch` context or after something else. -/
  durComments : s.dur = none → s.durComments = []
  durTok : ∀ d, s.dur = some d → d.tok.kind = .duration ∧ AllComments d.before
  durAll : AllComments s.durComments
  /-- `\rest` is after a note. -/
  restMark : ∀ t, s.mods = some (.rest t) → t.kind = .restMark ∧ ∃ u : Tok, s.start = some (.tok u) ∧ u.kind = .pitch
  chordMods : ∀ c cs, s.mods = some (.chord c cs) → ∀ x ∈ c :: cs, x.Ok
  modComments : s.mods = none → s.modComments = []
  modAll : AllComments s.modComments
  arts : ∀ a ∈ s.arts, a.Ok nargs
  artComments : s.arts = [] → s.artComments = []
  /-- The comments before the first articulation are `durComments` or `modComments`. -/
  artFirst : ∀ e, s.arts.head? ≠ some (.comment e)
  artAll : AllComments s.artComments
  /-- After modifiers, there are no comments between and after the articulations. -/
  modArts : s.mods.isSome = true → s.artComments = [] ∧ ∀ e, ArtItem.comment e ∉ s.arts
  /-- The sound without duration does not end with a comment inside a chord. -/
  settled : s.dur = none → Settled (s.base.extend ((s.pitch.map Prod.fst).getD []))
  modSettled : ∀ m, s.mods = some m → Settled m.node
  artSettled : s.arts ≠ [] → Settled (.mk .articulations [] [] (s.arts.map ArtItem.node))

/-! ## Phrases -/

inductive Phrase where
  | sound (s : Sound)
  /-- A tweak, tag or shape before music -/
  | before (ev : Ev)
  /-- A command, bar check, fraction, equal sign, ... -/
  | plain (t : Tok)
  /-- An expression, such as a music list, at top level -/
  | elem (c : Ctx) (e : Elem)
  | markup (m : Markup)
  | comment (e : Elem)
  /-- The contents of for example a `lyricmode` context -/
  | flat (l : List Elem)

def Phrase.items : Phrase → List Item
  | .sound s => s.items
  | .before ev => ev.items
  | .plain t => [.tok t]
  | .elem c e => [.elem c e]
  | .markup m => m.items
  | .comment e => [.elem .comment e]
  | .flat l => [.flat l]

def Phrase.nodes : Phrase → List Elem
  | .sound s => s.nodes
  | .before ev => [ev.node]
  | .plain t => [.mk (.made t.kind) [t] [] []]
  | .elem _ e => [e]
  | .markup m => [m.node]
  | .comment e => [e]
  | .flat l => l

/-- What came before: nothing that can still be continued, or a sound (which could be continued by a
duration), or a tweak, tag or shape. -/
structure Before where
  /-- A sound, maybe followed by tweaks, tags or shapes. -/
  sound : Bool := false
  /-- The sound has no duration and no articulations. -/
  bare : Bool := false
  /-- A tweak, tag or shape. -/
  event : Bool := false

/-- A phrase is correct at this place. -/
def Phrase.Ok (nargs : Counts) (b : Before) : Phrase → Prop
  | .sound s => s.Ok nargs ∧ (s.start = none → b.bare = false ∧ (b.sound = false → b.event = false))
  | .before ev => ev.Ok ∧
      match ev with
      | .direction _ | .spannerId _ _ => False
      | _ => True
  | .plain t =>
      t.kind ∈ [Kind.nameType, .pipe, .voice, .fraction, .builtin, .keyword, .float] ∨
        (t.kind = .equalSign ∧ b.event = false)
  | .elem c _ => c = .other ∨ (c ∈ [Ctx.string, .identifierRef] ∧ b.event = false)
  | .markup m => m.Ok nargs ∧ b.event = false
  | .comment _ => b.sound = false ∧ b.event = false
  | .flat _ => b.sound = false ∧ b.event = false

/-- There is no comment before the duration of a sound. -/
def Phrase.Plain : Phrase → Prop
  | .sound s => ∀ d, s.dur = some d → d.before = []
  | _ => True

/-- What is before the next phrase. -/
def Phrase.next (b : Before) : Phrase → Before
  | .sound s => { sound := true, bare := s.dur.isNone && s.arts.isEmpty }
  | .before _ => { b with event := true }
  | .plain _ => {}
  | .elem _ _ => {}
  | .markup _ => {}
  | .comment _ => b
  | .flat _ => b

/-- Correct music. -/
def Correct (nargs : Counts) : Before → List Phrase → Prop
  | _, [] => True
  | b, p :: ps => p.Ok nargs b ∧ Correct nargs (p.next b) ps

end Quickly.Read.Spec
