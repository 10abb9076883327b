import Verif.Build.Model

/-!
# Model of the signatures of the LilyPond elements, `quickly/dom/lily.py`

The classes of the module with their base classes, their `signatures()` and their `add_argument()`.  Base classes from
other modules (`element.HeadElement` and so on) are left out, except `base.Comment`; no signature names one of them.
The mixin classes `_ConvertUnpitchedToDuration` and `_ConvertUnpitchedToInt` are written without the underscore.

A node is a tree whose labels are a class and the text of the head (as it is in the origin tokens).
-/

namespace Quickly.Signature

open Quickly.Node

/-- The classes of `quickly/dom/lily.py`, in the order of the source, and `base.Comment`. -/
inductive Cls where
  | Comment
  | Music | HandleDuration | Durable | Pitchable | Reference | ConvertUnpitchedToDuration | ConvertUnpitchedToInt
  | HandleAssignments | Document | Number | Int | Fraction | Float | Symbol | String | Scheme | Spanner | Block
  | Book | BookPart | Score | Header | Paper | Layout | Midi | With | LayoutContext | EqualSign | Separator | List
  | Assignment | Identifier | IdentifierRef | MusicFunction | Context | New | Change | AddQuote | QuoteDuring
  | ApplyContext | ApplyMusic | ApplyOutput | Relative | Absolute | Fixed | Transpose | Repeat | Alternative
  | UnfoldRepeats | Unfolded | Volta | Transposition | Ottava | MusicList | SimultaneousMusicList | Sequential
  | Simultaneous | InputMode | LyricMode | ChordMode | DrumMode | NoteMode | FigureMode | Chord | ChordBody | Note
  | Pitch | Unpitched | RestType | Rest | MultiMeasureRest | PitchedRest | Space | Skip | After | Q | Drum
  | Accidental | Octave | OctCheck | OctaveCheck | Duration | DurationScaling | LyricItem | LyricText
  | LyricExtender | LyricHyphen | LyricSkip | ChordModifiers | AddSteps | RemoveSteps | Qualifier | Inversion
  | AddInversion | Step | Alteration | Articulations | Direction | Articulation | Modifier | RestModifier
  | Fingering | Dynamic | Slur | PhrasingSlur | Tie | LaissezVibrer | RepeatTie | Beam | Ligature | TextSpanner
  | TrillSpanner | Melisma | Arpeggio | Glissando | Bar | Breathe | Break | PageBreak | PageTurn | InStaffSegno
  | PipeSymbol | VoiceSeparator | Label | Mark | Default | Tempo | SpannerId | PesOrFlexa | Tweak | Tremolo | Mode
  | Key | Clef | Time | Partial | Times | Tuplet | ScaleDurations | ShiftDurations | Grace | Acciaccatura
  | Appoggiatura | SlashedGrace | AfterGrace | PartCombine | MultilineComment | SinglelineComment | Markup
  | MarkupWord | MarkupList | MarkupCommand | MarkupScore | MarkupScoreLines | Figure | FigureBody | FigureBracket
  | FigureStep | FigureSkip | FigureAccidental | FigureAlteration | Tag | KeepWithTag | RemoveWithTag | TagGroup
  | PushToTag | AppendToTag | Etc | Accepts | Denies | Name | Alias | Consists | Remove | DefaultChild | Omit
  | Hide | Undo | Once | Temporary | Override | Revert | Set | Unset | Version | Language | Include | VoiceN
  | GrobDirection | GrobStyle | GrobDashPattern | Toggle | Shape | VShape | StringTuning | Unit
deriving DecidableEq, Repr

/-- The base classes, from the class statements of `quickly/dom/lily.py` (L35-L3144) and `quickly/dom/base.py` L62-L80. -/
def bases : Cls → List Cls
  | .Durable | .After => [.HandleDuration, .Music]
  | .Pitchable | .MusicFunction | .Context | .Change | .QuoteDuring | .Relative | .Absolute
  | .Fixed | .Transpose | .Repeat | .Alternative | .UnfoldRepeats | .Unfolded | .Volta
  | .Transposition | .MusicList | .Sequential | .Simultaneous | .InputMode | .Arpeggio | .Glissando
  | .Bar | .Breathe | .InStaffSegno | .Label | .Mark | .Key | .Clef | .Time | .Times | .Grace
  | .AfterGrace | .PartCombine | .Figure | .Omit | .Hide | .Undo | .Once | .Temporary | .Revert
  | .Unset | .Version => [.Music]
  | .Document | .Block => [.HandleAssignments]
  | .Int | .Fraction | .Float => [.Number]
  | .Book | .BookPart | .Score | .Header | .Paper | .Layout | .Midi | .With | .LayoutContext => [.Block]
  | .Identifier => [.List]
  | .IdentifierRef | .MarkupCommand => [.Reference]
  | .New => [.Context]
  | .Ottava | .ScaleDurations | .ShiftDurations | .Override | .Set => [.ConvertUnpitchedToInt, .Music]
  | .SimultaneousMusicList => [.MusicList]
  | .LyricMode | .ChordMode | .DrumMode | .NoteMode | .FigureMode => [.InputMode]
  | .Chord | .Unpitched | .RestType | .Space | .Skip | .Q | .Drum | .LyricItem | .LyricText
  | .LyricSkip => [.Durable]
  | .Note => [.Pitchable, .Durable]
  | .Pitch => [.Pitchable]
  | .Rest => [.RestType]
  | .MultiMeasureRest => [.Rest]
  | .PitchedRest => [.Pitchable, .RestType]
  | .Step | .FigureStep => [.Int]
  | .Slur | .PhrasingSlur | .Beam | .Ligature | .TextSpanner | .TrillSpanner | .Melisma => [.Spanner]
  | .LaissezVibrer | .RepeatTie => [.Tie]
  | .Tempo | .Partial | .Tuplet => [.ConvertUnpitchedToDuration, .HandleDuration, .Music]
  | .Acciaccatura | .Appoggiatura | .SlashedGrace => [.Grace]
  | .MultilineComment | .SinglelineComment => [.Comment]
  | .MarkupScore => [.Score]
  | .MarkupScoreLines => [.MarkupScore]
  | .GrobDashPattern => [.ConvertUnpitchedToInt]
  | .VShape => [.Shape]
  | _ => []

/-- `issubclass(a, c)`; no class has more than five ancestors in a row. -/
def isSub : ℕ → Cls → Cls → Bool
  | 0, a, c => a == c
  | n + 1, a, c => a == c || (bases a).any fun b => isSub n b c

/-- A signature entry: a class or a tuple of classes. -/
abbrev Entry := List Cls

/-- L3497. -/
def MUSIC : Entry := [.Music, .IdentifierRef, .Etc]
/-- L3498. -/
def VALUE : Entry := [.List, .String, .Scheme, .Number, .Markup, .IdentifierRef, .Etc, .Unpitched]
/-- L3499. -/
def SYMBOL : Entry := [.List, .Symbol, .String]
/-- L3500. -/
def TEXT : Entry := [.List, .Symbol, .String, .Markup, .IdentifierRef, .Etc]
/-- L3501. -/
def NUMBER : Entry := [.Scheme, .Number, .Unpitched]
/-- L3502. -/
def INT : Entry := [.Int, .IdentifierRef, .Scheme]

/-- The `signatures()` that are implemented in a class itself, without the two that depend on the head. -/
def ownSigs : Cls → Option (List (List Entry))
  | .Int => some [[[.Unit]]]  -- L614
  | .Float => some [[[.Unit]]]  -- L654
  -- L1170
  | .Context => some [
      [[.Symbol], MUSIC],
      [[.Symbol], [.With], MUSIC],
      [[.Symbol], [.EqualSign], [.String, .Symbol], MUSIC],
      [[.Symbol], [.EqualSign], [.String, .Symbol], [.With], MUSIC]]
  | .Change => some [[[.Symbol], [.EqualSign], [.String, .Symbol]]]  -- L1187
  | .AddQuote => some [[[.Identifier, .String, .Symbol], MUSIC]]  -- L1196
  | .QuoteDuring => some [[[.List, .String, .Symbol], MUSIC]]  -- L1205
  | .ApplyContext => some [[[.Scheme]]]  -- L1214
  | .ApplyMusic => some [[[.Scheme], MUSIC]]  -- L1223
  | .ApplyOutput => some [[SYMBOL, [.Scheme]]]  -- L1232
  | .Relative => some [[[.Pitchable], MUSIC], [MUSIC]]  -- L1241
  | .Absolute => some [[MUSIC]]  -- L1257
  | .Fixed => some [[[.Pitchable], MUSIC]]  -- L1266
  | .Transpose => some [[[.Pitchable], [.Pitchable], MUSIC]]  -- L1281
  | .Repeat => some [[[.Symbol], INT, MUSIC], [[.Symbol], INT, MUSIC, [.Alternative]]]  -- L1296
  | .Alternative => some [[[.MusicList]]]  -- L1306
  | .UnfoldRepeats => some [[MUSIC]]  -- L1315
  | .Unfolded => some [[MUSIC]]  -- L1324
  | .Volta => some [[[.List, .Scheme], MUSIC]]  -- L1333
  | .Transposition => some [[[.Pitchable]]]  -- L1342
  | .Ottava => some [[NUMBER]]  -- L1357
  | .Sequential => some [[[.MusicList]]]  -- L1391
  | .Simultaneous => some [[[.MusicList]]]  -- L1400
  | .InputMode => some [[MUSIC]]  -- L1412
  | .Skip => some [[[.Duration]], [MUSIC]]  -- L1595
  | .OctaveCheck => some [[[.Pitchable]]]  -- L1682
  | .Bar => some [[[.String]]]  -- L2015
  | .Label => some [[[.Scheme]]]  -- L2064
  | .Mark => some [[[.Default]], [VALUE]]  -- L2072
  -- L2095
  | .Tempo => some [
      [TEXT],
      [TEXT, [.Unpitched], [.EqualSign], [.Int]],
      [[.Unpitched], [.EqualSign], [.Int]]]
  | .Key => some [[[.Pitchable], [.Mode, .IdentifierRef, .Scheme]]]  -- L2173
  | .Clef => some [[[.Symbol, .String]]]  -- L2192
  | .Time => some [[[.List], [.Fraction]], [[.Fraction]]]  -- L2205
  | .Partial => some [[[.Duration]], [[.Unpitched]]]  -- L2219
  | .Times => some [[[.Fraction], MUSIC]]  -- L2240
  -- L2261
  | .Tuplet => some [
      [[.Fraction], [.Duration], MUSIC],
      [[.Fraction], [.Unpitched], MUSIC],
      [[.Fraction], MUSIC]]
  | .ScaleDurations => some [[[.Fraction, .Int, .Unpitched, .Scheme], MUSIC]]  -- L2281
  | .ShiftDurations => some [[NUMBER, NUMBER, MUSIC]]  -- L2301
  | .Grace => some [[MUSIC]]  -- L2318
  | .AfterGrace => some [[[.Fraction], MUSIC, MUSIC], [MUSIC, MUSIC]]  -- L2376
  | .PartCombine => some [[MUSIC, MUSIC]]  -- L2386
  | .Tag => some [[[.Symbol, .String, .Scheme], MUSIC]]  -- L2537
  | .KeepWithTag => some [[[.Symbol, .String, .Scheme], MUSIC]]  -- L2545
  | .RemoveWithTag => some [[[.Symbol, .String, .Scheme], MUSIC]]  -- L2553
  | .TagGroup => some [[[.Symbol, .String, .Scheme]]]  -- L2561
  | .PushToTag => some [[[.Symbol, .String, .Scheme], MUSIC]]  -- L2569
  | .AppendToTag => some [[[.Symbol, .String, .Scheme], MUSIC]]  -- L2577
  | .Accepts => some [[[.String, .Symbol]]]  -- L2591
  | .Denies => some [[[.String, .Symbol]]]  -- L2600
  | .Name => some [[[.String, .Symbol]]]  -- L2609
  | .Alias => some [[[.String, .Symbol]]]  -- L2618
  | .Consists => some [[[.String, .Symbol, .Scheme]]]  -- L2627
  | .Remove => some [[[.String, .Symbol, .Scheme]]]  -- L2636
  | .DefaultChild => some [[[.String, .Symbol]]]  -- L2645
  | .Omit => some [[SYMBOL]]  -- L2654
  | .Hide => some [[SYMBOL]]  -- L2663
  | .Undo => some [[MUSIC]]  -- L2672
  | .Once => some [[MUSIC]]  -- L2681
  | .Temporary => some [[MUSIC]]  -- L2690
  -- L2699
  | .Override => some [
      [SYMBOL, [.EqualSign], VALUE],
      [SYMBOL, [.Scheme], [.EqualSign], VALUE],
      [SYMBOL, [.Scheme], [.Scheme], [.EqualSign], VALUE],
      [SYMBOL, [.Scheme], [.Scheme], [.Scheme], [.EqualSign], VALUE],
      [SYMBOL, [.Scheme], [.Scheme], [.Scheme], [.Scheme], [.EqualSign], VALUE]]
  -- L2712
  | .Revert => some [
      [SYMBOL],
      [SYMBOL, [.Scheme]],
      [SYMBOL, [.Scheme], [.Scheme]],
      [SYMBOL, [.Scheme], [.Scheme], [.Scheme]],
      [SYMBOL, [.Scheme], [.Scheme], [.Scheme], [.Scheme]]]
  | .Set => some [[SYMBOL, [.EqualSign], VALUE]]  -- L2725
  | .Unset => some [[SYMBOL]]  -- L2734
  | .Version => some [[[.String]]]  -- L2759
  | .Language => some [[[.String]]]  -- L2773
  | .Include => some [[[.String]]]  -- L2804
  | .GrobDashPattern => some [[NUMBER, NUMBER]]  -- L3028
  | .Shape => some [[[.Scheme], SYMBOL]]  -- L3122
  | .StringTuning => some [[MUSIC]]  -- L3140
  | _ => none

/-- `signatures()` of a class or inherited.  Wherever one is inherited here, it comes from one base class only, so the
method resolution order does not matter. -/
def inherited : ℕ → Cls → Option (List (List Entry))
  | 0, a => ownSigs a
  | n + 1, a =>
    match ownSigs a with
    | some ss => some ss
    | none => (bases a).findSome? fun b => inherited n b

/-- `signatures()` of an instance with the head `h`: MusicFunction L1160-1162 and LyricMode L1419-1423, which have no
subclasses, depend on it. -/
def signatures (a : Cls) (h : String) : Option (List (List Entry)) :=
  if a = .MusicFunction then some (if h = "defineBarLine" then [[[.String], [.Scheme]]] else [])
  else if a = .LyricMode then some (if h = "lyricsto" then [[[.String, .Symbol], MUSIC]] else [[MUSIC]])
  else inherited 5 a

/-- A node: class and text of the head. -/
abbrev Label := Cls × String

/-- `Note.to_pitch()`, L1487-1498: a Pitch with the head and the children of the note. -/
def toPitch (n : Tree Label) : Tree Label := .node (.Pitch, n.val.2) n.children

/-- `sum(1 for n in self / Pitchable)`, the number of children that are Pitchable, L1247. -/
def pitches (p : Tree Label) : ℕ := (p.children.filter fun c => isSub 5 c.val.1 .Pitchable).length

/-- `int(text)` does not fail; only for texts of digits (no signs, spaces or underscores, which are not in a duration),
L3378-3386. -/
def isInt (s : String) : Bool := !s.toList.isEmpty && s.toList.all fun c => c.isDigit

/-- `convert_duration_to_int(node)`, L3370-3386, for a node with an origin; `none` if it cannot be converted. -/
def durationToInt (d : Tree Label) : Option (Tree Label) :=
  if isInt d.val.2 then some (.node (.Int, d.val.2) []) else none

/-- `_ConvertUnpitchedToDuration.add_argument()`, L488-494, what is appended: the first child of an Unpitched. -/
def unpitchedToDuration (n : Tree Label) : Tree Label :=
  if isSub 5 n.val.1 .Unpitched then n.children.headD n else n

/-- `_ConvertUnpitchedToInt.add_argument()`, L499-505: an Int of the first Duration of an Unpitched. -/
def unpitchedToInt (n : Tree Label) : Tree Label :=
  if isSub 5 n.val.1 .Unpitched then
    match n.children.find? fun c => isSub 5 c.val.1 .Duration with
    | some d => (durationToInt d).getD n
    | none => n
  else n

/-- `add_argument()` of Relative L1245, Fixed L1269, Transpose L1284, Transposition L1345, OctaveCheck L1685 and Key
L2176, with the number of pitches. -/
def pitchArgs : Cls → Option ℕ
  | .Relative | .Fixed | .Transposition | .OctaveCheck | .Key => some 1
  | .Transpose => some 2
  | _ => none

/-- What `p.add_argument(n)` appends: the implementations in the classes above, and the two mixin classes. -/
def conv (p n : Tree Label) : Tree Label :=
  match pitchArgs p.val.1 with
  | some k => if isSub 5 n.val.1 .Note && decide (pitches p < k) then toPitch n else n
  | none =>
    if isSub 5 p.val.1 .ConvertUnpitchedToDuration then unpitchedToDuration n
    else if isSub 5 p.val.1 .ConvertUnpitchedToInt then unpitchedToInt n
    else n

/-- What `build_tree(nodes, ignore_type=base.Comment)` depends on, for LilyPond nodes,
`quickly/lang/lilypond.py` L448, L529. -/
def lily : Build.Env Label Entry where
  isa a c := c.any fun k => isSub 5 a.1 k
  sigs a := (signatures a.1 a.2).getD []
  gen a := (signatures a.1 a.2).isSome
  ignored a := isSub 5 a.1 .Comment
  conv := conv

end Quickly.Signature
