import Verif.Signature.Model
import Verif.Build.NestSpec

/-!
# The arguments of LilyPond commands, as LilyPond documents them

From LilyPond's manuals (Notation Reference, "Available music functions", "Modifying properties", "Contexts"): the kinds
of arguments, the elements of this library that stand for an argument of a kind when it is written in a text, and the
forms of the commands.  Scheme expressions can stand for any argument in LilyPond; they are in the tables only where
the manual writes a Scheme expression, and for music.  The model's class hierarchy and signatures are not used.
-/

namespace Quickly.Signature.Spec

open Quickly.Node

/-- The kinds of arguments. -/
inductive Kind where
  /-- any music expression -/
  | music
  /-- `{ ... }` or `<< ... >>` -/
  | list
  /-- the endings of a repeat -/
  | alternative
  /-- a pitch, like `c'` -/
  | pitch
  /-- a length, like `4.` -/
  | duration
  /-- a number that is not a length, like `120` -/
  | count
  /-- the number of times of a repeat -/
  | times
  /-- a number, like `1` or `1.5` -/
  | number
  /-- a number or fraction, like `3/2` -/
  | ratio
  /-- a fraction, like `3/4` -/
  | fraction
  /-- numbers, like `2,3` or `1` -/
  | numbers
  /-- a word or string -/
  | name
  /-- the type of a context -/
  | type
  /-- a string in quotes -/
  | string
  /-- a word, for example the type of a repeat -/
  | word
  /-- a Scheme expression -/
  | scheme
  /-- the name of a tag or label -/
  | tag
  /-- a name with parts, like `Staff.TimeSignature` -/
  | path
  /-- a text or markup -/
  | text
  /-- any value -/
  | value
  /-- `\major` and so on -/
  | mode
  /-- `\default` -/
  | default
  /-- the equal sign -/
  | equal
  /-- `\with { }` -/
  | with
  /-- the name of an engraver -/
  | engraver
  /-- a unit of length -/
  | unit
deriving DecidableEq, Repr

/-- Notes, rests and so on. -/
def events : List Cls :=
  [.Note, .Chord, .Rest, .MultiMeasureRest, .PitchedRest, .Space, .Skip, .Q, .Drum, .Unpitched, .LyricText, .LyricItem,
   .LyricSkip, .Figure, .Arpeggio, .Glissando, .Breathe]

/-- Commands that are music. -/
def commands : List Cls :=
  [.MusicList, .SimultaneousMusicList, .Sequential, .Simultaneous, .Context, .New, .Change, .Relative, .Absolute,
   .Fixed, .Transpose, .Repeat, .Alternative, .UnfoldRepeats, .Unfolded, .Volta, .Transposition, .Ottava, .LyricMode,
   .ChordMode, .DrumMode, .NoteMode, .FigureMode, .Bar, .Mark, .Label, .Tempo, .Key, .Clef, .Time, .Partial, .Times,
   .Tuplet, .ScaleDurations, .ShiftDurations, .Grace, .Acciaccatura, .Appoggiatura, .SlashedGrace, .AfterGrace, .After,
   .PartCombine, .QuoteDuring, .InStaffSegno, .Omit, .Hide, .Undo, .Once, .Temporary, .Override, .Revert, .Set, .Unset,
   .MusicFunction]

/-- More commands that are music: for the tags, the Scheme functions, the form of curves, the octave check, and all the
predefined commands like `\voiceOne`, `\stemUp`, `\slurDashed` and `\break`. -/
def commands2 : List Cls :=
  [.Tag, .KeepWithTag, .RemoveWithTag, .PushToTag, .AppendToTag, .ApplyMusic, .ApplyContext, .ApplyOutput, .Shape,
   .VShape, .OctaveCheck, .VoiceN, .GrobDirection, .GrobStyle, .GrobDashPattern, .Toggle, .Break, .PageBreak, .PageTurn]

/-- The elements that can stand for an argument. -/
def Kind.members : Kind → List Cls
  | .music => events ++ commands ++ commands2 ++ [.IdentifierRef, .Scheme, .Etc]
  | .list => [.MusicList, .SimultaneousMusicList]
  | .alternative => [.Alternative]
  | .pitch => [.Note]
  | .duration => [.Unpitched]
  | .count => [.Int, .Unpitched]
  | .times => [.Int, .IdentifierRef, .Scheme]
  | .number => [.Int, .Float, .Fraction, .Unpitched, .Scheme]
  | .ratio => [.Fraction, .Int, .Unpitched, .Scheme]
  | .fraction => [.Fraction]
  | .numbers => [.List, .Scheme, .Int, .Unpitched]
  | .name => [.String, .Symbol]
  | .type => [.Symbol, .String]
  | .string => [.String]
  | .word => [.Symbol]
  | .scheme => [.Scheme]
  | .tag => [.Scheme, .Symbol, .String, .List]
  | .path => [.List, .Symbol, .String]
  | .text => [.Symbol, .String, .Markup, .IdentifierRef, .Etc, .List]
  | .value => [.String, .Symbol, .List, .Scheme, .Int, .Float, .Fraction, .Unpitched, .Markup, .IdentifierRef, .Etc]
  | .mode => [.Mode, .IdentifierRef, .Scheme]
  | .default => [.Default]
  | .equal => [.EqualSign]
  | .with => [.With]
  | .engraver => [.String, .Symbol, .Scheme]
  | .unit => [.Unit]

/-- The forms of a command; an optional argument gives two forms. -/
def forms : Cls → List (List Kind)
  | .Context | .New =>
    [[.type, .music], [.type, .with, .music], [.type, .equal, .name, .music], [.type, .equal, .name, .with, .music]]
  | .Change => [[.type, .equal, .name]]
  | .AddQuote | .QuoteDuring => [[.name, .music]]
  | .ApplyContext => [[.scheme]]
  | .ApplyMusic => [[.scheme, .music]]
  | .ApplyOutput => [[.path, .scheme]]
  | .Relative => [[.pitch, .music], [.music]]
  | .Fixed => [[.pitch, .music]]
  | .Transpose => [[.pitch, .pitch, .music]]
  | .Transposition | .OctaveCheck => [[.pitch]]
  | .Absolute | .UnfoldRepeats | .Unfolded | .ChordMode | .DrumMode | .NoteMode | .FigureMode | .LyricMode | .Grace
  | .Acciaccatura | .Appoggiatura | .SlashedGrace | .Undo | .Once | .Temporary | .StringTuning | .Skip => [[.music]]
  | .Repeat => [[.word, .times, .music], [.word, .times, .music, .alternative]]
  | .Alternative | .Sequential | .Simultaneous => [[.list]]
  | .Volta => [[.numbers, .music]]
  | .Ottava => [[.number]]
  | .Bar | .Version | .Language | .Include => [[.string]]
  | .Label | .TagGroup => [[.tag]]
  | .Tag | .KeepWithTag | .RemoveWithTag => [[.tag, .music]]
  | .PushToTag | .AppendToTag => [[.tag, .music, .music]]
  | .Mark => [[.default], [.value]]
  | .Tempo => [[.text], [.text, .duration, .equal, .count], [.duration, .equal, .count]]
  | .Key => [[.pitch, .mode]]
  | .Clef | .Accepts | .Denies | .Name | .Alias | .DefaultChild => [[.name]]
  | .Consists | .Remove => [[.engraver]]
  | .Time => [[.numbers, .fraction], [.fraction]]
  | .Partial => [[.duration]]
  | .Times => [[.fraction, .music]]
  | .Tuplet => [[.fraction, .duration, .music], [.fraction, .music]]
  | .ScaleDurations => [[.ratio, .music]]
  | .ShiftDurations => [[.number, .number, .music]]
  | .AfterGrace => [[.fraction, .music, .music], [.music, .music]]
  | .PartCombine => [[.music, .music]]
  | .Omit | .Hide | .Unset => [[.path]]
  | .Override =>
    [[.path, .equal, .value], [.path, .scheme, .equal, .value], [.path, .scheme, .scheme, .equal, .value],
     [.path, .scheme, .scheme, .scheme, .equal, .value],
     [.path, .scheme, .scheme, .scheme, .scheme, .equal, .value]]
  | .Revert =>
    [[.path], [.path, .scheme], [.path, .scheme, .scheme], [.path, .scheme, .scheme, .scheme],
     [.path, .scheme, .scheme, .scheme, .scheme]]
  | .Set => [[.path, .equal, .value]]
  | .GrobDashPattern => [[.number, .number]]
  | .Shape | .VShape => [[.scheme, .path]]
  | .Int | .Float => [[.unit]]
  | _ => []

/-- The forms of a node: two commands with their own name only. -/
def formsOf (a : Label) : List (List Kind) :=
  if a.1 = .LyricMode ∧ a.2 = "lyricsto" then [[.name, .music]]
  else if a.1 = .MusicFunction ∧ a.2 = "defineBarLine" then [[.string, .scheme]]
  else forms a.1

/-! ## What the library does not take -/

/-- Arguments that LilyPond allows and the library does not take. -/
def refuses (a : Cls) (k : Kind) (z : Cls) : Bool :=
  match k with
  -- `\relative c' \tag #'x { }`, `\once \stemUp`, `\new Staff $music`
  | .music => decide (z ∈ commands2 ∨ z = .Scheme)
  -- `\volta 1 { }`, `\time #'(3 2) 5/8`
  | .numbers => decide (z = .Int ∨ z = .Unpitched ∨ (a = .Time ∧ z = .Scheme))
  -- `\tempo 4 = 64`, where 64 is read as a duration
  | .count => decide (z = .Unpitched)
  -- `\new "Staff" { }`
  | .type => decide (z = .String)
  -- `\label here`, `\keepWithTag a.b { }`
  | .tag => decide (z = .List ∨ (a = .Label ∧ z ≠ .Scheme))
  -- `\set Staff.instrumentName = Violin`
  | .value => decide (z = .Symbol)
  | _ => false

/-- Further arguments are not taken: the second music of `\pushToTag` and `\appendToTag`. -/
def ignores (a : Cls) (i : ℕ) : Bool := decide ((a = .PushToTag ∨ a = .AppendToTag) ∧ i = 2)

/-- The labels are the first arguments of a form, and all are taken. -/
def Fits (a : Label) (form : List Kind) (ls : List Label) : Prop :=
  ∃ ks rest, form = ks ++ rest ∧
    List.Forall₂ (fun (k : Kind) (l : Label) => l.1 ∈ k.members ∧ refuses a.1 k l.1 = false) ks ls ∧
    ∀ i < ls.length, ignores a.1 i = false

/-- Base classes, and elements that are only made inside another element or by the library itself. -/
def inner : List Cls :=
  [.Music, .HandleDuration, .Durable, .Pitchable, .Reference, .ConvertUnpitchedToDuration, .ConvertUnpitchedToInt,
   .HandleAssignments, .Number, .Spanner, .Block, .InputMode, .RestType, .Pitch, .Duration, .Step, .FigureStep,
   .Identifier]

/-- What the library takes as an argument although it is not one: `\version` as music, a rest as pitch, a name with
parts for `\quoteDuring`. -/
def mistakes (a : Cls) (k : Kind) (z : Cls) : Bool :=
  match k with
  | .music => decide (z = .Version)
  | .pitch => decide (z = .PitchedRest)
  | .name => decide (a = .QuoteDuring ∧ z = .List)
  | _ => false

/-- What the library takes as an argument of the kind. -/
def takes (a : Cls) (k : Kind) (z : Cls) : Bool := (decide (z ∈ k.members) && !refuses a k z) || mistakes a k z

/-- The library takes the labels as the first arguments of a form. -/
def Begins (a : Label) (form : List Kind) (ls : List Label) : Prop :=
  ∃ ks rest, form = ks ++ rest ∧ List.Forall₂ (fun (k : Kind) (l : Label) => takes a.1 k l.1 = true) ks ls ∧
    ∀ i < ls.length, ignores a.1 i = false

/-! ## What an argument becomes -/

/-- A pitch is a Pitch, with the same name and children. -/
def asPitch (n : Tree Label) : Tree Label := .node (.Pitch, n.val.2) n.children

/-- A length that stands alone is a Duration. -/
def asDuration (n : Tree Label) : Tree Label :=
  match n with
  | .node _ (d :: _) => d
  | n => n

/-- A number that is read as a length is a number. -/
def asNumber (n : Tree Label) : Tree Label :=
  match n with
  | .node (.Unpitched, _) (.node (.Duration, s) _ :: _) =>
    if s ≠ "" ∧ s.toList.all Char.isDigit = true then .node (.Int, s) [] else n
  | n => n

/-- What an argument of the kind is in the tree. -/
def asArgument : Kind → Tree Label → Tree Label
  | .pitch, n => asPitch n
  | .duration, n => asDuration n
  | .number, n => asNumber n
  | .ratio, n => asNumber n
  | .value, n => asNumber n
  | _, n => n

/-- A comment. -/
def isComment (z : Cls) : Bool := decide (z = .Comment ∨ z = .MultilineComment ∨ z = .SinglelineComment)

/-- The arguments of a form in their places, and comments where they are. -/
def place : List Kind → List (Tree Label) → List (Tree Label)
  | _, [] => []
  | ks, t :: ts =>
    if isComment t.val.1 then t :: place ks ts
    else
      match ks with
      | [] => t :: place [] ts
      | k :: ks => asArgument k t :: place ks ts

/-- An Unpitched has a Duration as first child. -/
def Whole (t : Tree Label) : Prop :=
  t.val.1 = .Unpitched → ∃ s ks rest, t.children = .node (.Duration, s) ks :: rest

/-- The library mistakes music for a pitch or a length, and leaves the number of a `\mark` a length. -/
def confuses (a : Cls) (k : Kind) (z : Cls) : Bool :=
  match k with
  | .music =>
    decide ((a = .Relative ∧ z = .Note) ∨
      (z = .Unpitched ∧ (a = .Tuplet ∨ a = .ScaleDurations ∨ a = .ShiftDurations)))
  | .value => decide (a = .Mark ∧ z = .Unpitched)
  | _ => false

/-! ## Texts -/

open Quickly.Build.Spec (Ex inputs)

/-- The labels of the arguments, without comments. -/
def words (args : List (Ex Label)) : List Label := (args.map Ex.label).filter fun l => !isComment l.1

/-- After the arguments `ls` a node `a` could have `b` as next argument: a form goes on with it, or, for a comment,
goes on at all.  A function of which nothing is known takes a comment that follows immediately. -/
def Room (a : Label) (ls : List Label) (b : Label) : Prop :=
  (∃ form ∈ formsOf a,
      if isComment b.1 then Begins a form ls ∧ ls.length < form.length ∧ ignores a.1 ls.length = false
      else Begins a form (ls ++ [b])) ∨
    (isComment b.1 = true ∧ a.1 = .MusicFunction ∧ ls = [])

/-- `b` can not be a further argument in an expression. -/
inductive Ends (b : Label) : Ex Label → Prop
  | mk (n : Tree Label) (args : List (Ex Label)) : ¬ Room n.val (words args) b →
      (∀ y, args.getLast? = some y → Ends b y) → Ends b (.mk n args)

/-- An expression as LilyPond documents it and the library takes it, and its tree: an element without arguments, or a
command with the first arguments of one of its forms (all, or less if the text ends), which are such expressions
again.  A comment is one of the arguments if there could be a further argument. -/
inductive Reads : Ex Label → Tree Label → Prop
  | leaf (n : Tree Label) : formsOf n.val = [] → n.val.1 ∉ inner → Whole n → Reads (.mk n []) n
  | command (a : Label) (form : List Kind) (args : List (Ex Label)) (ts : List (Tree Label)) :
      form ∈ formsOf a → a.1 ∉ inner → Fits a form (words args) →
      (∀ p ∈ form.zip (words args), confuses a.1 p.1 p.2.1 = false) →
      (∀ y, args.getLast? = some y → isComment y.label.1 = true →
        (words args).length < form.length ∧ ignores a.1 (words args).length = false) →
      args.IsChain (fun x y => Ends y.label x) →
      args.length = ts.length → (∀ p ∈ args.zip ts, Reads p.1 p.2) →
      Reads (.mk (.node a []) args) (.node a (place form ts))

/-- Expressions after one another, with their trees. -/
def ReadsAll (xs : List (Ex Label)) (ts : List (Tree Label)) : Prop :=
  List.Forall₂ Reads xs ts ∧ xs.IsChain (fun x y => Ends y.label x)

end Quickly.Signature.Spec
