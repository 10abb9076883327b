import Verif.Length.Model
import Verif.Duration.Spec

/-!
# How long LilyPond music lasts

From LilyPond's Notation Reference ("Rhythms", "Repeats", "Special rhythmic concerns", "Available music functions"): which
elements take time, how commands change the durations in their argument, and that a note without a duration has the
duration of the note before it in the text.  The tables name the classes one by one; the class hierarchy and the methods
of the model are not used.
-/

namespace Quickly.Length.Spec

open Quickly.Node Quickly.Signature
open Quickly.Duration.Spec (value)

/-- Elements that take time by themselves. -/
def events : List Cls :=
  [.Note, .Rest, .MultiMeasureRest, .PitchedRest, .Space, .Q, .Drum, .Unpitched, .LyricText, .LyricItem, .LyricSkip]

/-- Elements that take no time, and values: they neither are nor contain music that is played. -/
def silent : List Cls :=
  [.Comment, .MultilineComment, .SinglelineComment, .Symbol, .String, .Int, .Fraction, .Float, .Scheme, .Unit, .Pitch,
   .Octave, .Accidental, .OctCheck, .Duration, .DurationScaling, .EqualSign, .Separator, .List, .With, .Mode, .Default,
   .Markup, .MarkupWord, .MarkupList, .PipeSymbol, .VoiceSeparator, .Clef, .Key, .Time, .Partial, .Tempo, .Bar, .Mark,
   .Label, .Breathe, .Change, .Transposition, .Ottava, .Override, .Revert, .Set, .Unset, .Omit, .Hide, .Break, .PageBreak,
   .PageTurn, .VoiceN, .GrobDirection, .GrobStyle, .GrobDashPattern, .Toggle, .Arpeggio, .Glissando, .InStaffSegno,
   .LyricHyphen, .LyricExtender, .OctaveCheck, .TagGroup, .ApplyContext, .ApplyOutput, .Language, .Include, .Version,
   .AddQuote]

/-- Events that are attached to a note. -/
def posts : List Cls :=
  [.Articulations, .Direction, .Articulation, .Modifier, .RestModifier, .Fingering,
    .Dynamic, .Slur, .PhrasingSlur, .Tie, .LaissezVibrer, .RepeatTie, .Beam, .Ligature, .TextSpanner, .TrillSpanner,
    .Melisma, .SpannerId, .PesOrFlexa, .Tweak, .Tremolo, .ChordModifiers, .AddSteps, .RemoveSteps,
    .Qualifier, .Inversion, .AddInversion, .Step, .Alteration]

/-- What can be in a note or chord: further elements that are attached to it. -/
def attached : List Cls := silent ++ [.ChordBody, .Note, .Drum, .MarkupCommand] ++ posts

/-- Commands whose length is that of the music in their argument. -/
def wrappers : List Cls :=
  [.Context, .New, .QuoteDuring, .Relative, .Absolute, .Fixed, .Transpose, .Alternative, .UnfoldRepeats, .Unfolded,
   .Volta, .Sequential, .LyricMode, .ChordMode, .DrumMode, .NoteMode, .FigureMode, .Undo, .Once, .Temporary,
   .MusicFunction]

/-- The grace notes. -/
def graces : List Cls := [.Grace, .Acciaccatura, .Appoggiatura, .SlashedGrace]

/-- Comments. -/
def comments : List Cls := [.Comment, .MultilineComment, .SinglelineComment]

/-- A tree of the given classes. -/
inductive All (L : List Cls) : Nd → Prop
  | mk (c : Cls) (v : Val) (cs : List Nd) : c ∈ L → (∀ x ∈ cs, All L x) → All L (.node (c, v) cs)

/-- A tree in which the notes have no duration of their own. -/
inductive NoDur : Nd → Prop
  | mk (c : Cls) (v : Val) (cs : List Nd) : (c ∈ events → ∀ x ∈ cs, x.val.1 ≠ .Duration) → (∀ x ∈ cs, NoDur x) →
      NoDur (.node (c, v) cs)

/-- A tree of elements that take no time; a markup can contain anything that can be attached to a note. -/
inductive Silent : Nd → Prop
  | mk (c : Cls) (v : Val) (cs : List Nd) : c ∈ silent → (∀ x ∈ cs, Silent x) → Silent (.node (c, v) cs)
  | markup (v : Val) (cs : List Nd) : (∀ x ∈ cs, All attached x ∧ NoDur x) → Silent (.node (.Markup, v) cs)

/-- The duration that is written after a note. -/
inductive Written : List Nd → ℚ → ℚ → Prop
  | plain (pre post : List Nd) (q : ℚ) (ds : List Nd) : (∀ x ∈ pre, x.val.1 ≠ .Duration) →
      (∀ x ∈ ds, x.val.1 ∈ comments) → Written (pre ++ .node (.Duration, .value q) ds :: post) q 1
  | scaled (pre post : List Nd) (q s : ℚ) : (∀ x ∈ pre, x.val.1 ≠ .Duration) →
      Written (pre ++ .node (.Duration, .value q) [.node (.DurationScaling, .value s) []] :: post) q s

/-- The duration of a note: what is written, or else the current duration `d`; it is the next current duration. -/
def Has (d : D) (cs : List Nd) (d' : D) : Prop :=
  Written cs d'.1 d'.2 ∨ ((∀ x ∈ cs, x.val.1 ≠ .Duration) ∧ d' = d)

/-- What a command does with the durations in its argument. -/
inductive Change where
  /-- the length is multiplied -/
  | scale (q : ℚ)
  /-- the duration log is changed, and the number of dots -/
  | shift (log dots : ℤ)

/-- The length of a note with a duration log, a number of dots and a scaling, in commands, the innermost first; nothing is
said if dots are removed that are not there, or if the duration becomes longer than a `\maxima`. -/
def sounds : List Change → ℤ → ℤ → ℚ → Option ℚ
  | [], l, k, s => some (value l k.toNat * s)
  | .scale q :: cs, l, k, s => sounds cs l k (s * q)
  | .shift a b :: cs, l, k, s => if -3 ≤ l + a ∧ 0 ≤ k + b ∧ k + b ≤ 52 then sounds cs (l + a) (k + b) s else none

/-- A note with the duration takes that long. -/
def Sounds (ctx : List Change) (d : D) (q : ℚ) : Prop :=
  ∃ (l : ℤ) (k : ℕ), -3 ≤ l ∧ k ≤ 52 ∧ d.1 = value l k ∧ 0 ≤ d.2 ∧ sounds ctx l k d.2 = some q

/-- The number that is written. -/
inductive Number : Nd → ℚ → Prop
  | int (n : ℤ) : Number (.node (.Int, .num (.int n)) []) n
  | float (q : ℚ) : Number (.node (.Float, .num (.float q)) []) q
  | fraction (a b : ℤ) : b ≠ 0 → Number (.node (.Fraction, .pair a b) []) (a / b)
  | scheme (v : Num) (cs : List Nd) : (∀ x ∈ cs, Silent x) → Number (.node (.Scheme, .scheme (some v)) cs) v.rat

/-- The integer that is written, also as `2.0`. -/
inductive Integer : Nd → ℤ → Prop
  | int (n : ℤ) : Integer (.node (.Int, .num (.int n)) []) n
  | scheme (n : ℤ) (cs : List Nd) : (∀ x ∈ cs, Silent x) →
      Integer (.node (.Scheme, .scheme (some (.int n))) cs) n
  | float (n : ℤ) : Integer (.node (.Float, .num (.float n)) []) n
  | schemeFloat (n : ℤ) (cs : List Nd) : (∀ x ∈ cs, Silent x) →
      Integer (.node (.Scheme, .scheme (some (.float n))) cs) n

/-- The longest of some lengths. -/
def Longest (qs : List ℚ) (q : ℚ) : Prop := (qs = [] ∧ q = 0) ∨ (q ∈ qs ∧ ∀ y ∈ qs, y ≤ q)

/-- A variable: its name, the current duration where its value is, and the value. -/
abbrev Var := String × D × Nd

/-- In a list of expressions that are in commands, the expressions have the lengths; `d` is the current duration before
it, `d'` after it.  The variables are those that were assigned before, the last one first. -/
inductive Plays : List Var → List Change → D → List Nd → List ℚ → D → Prop
  | nil (vars : List Var) (ctx : List Change) (d : D) : Plays vars ctx d [] [] d
  | cons (vars : List Var) (ctx : List Change) (d d1 d2 : D) (t : Nd) (ts : List Nd) (q : ℚ) (qs : List ℚ) :
      Plays vars ctx d [t] [q] d1 → Plays vars ctx d1 ts qs d2 → Plays vars ctx d (t :: ts) (q :: qs) d2
  | silent (vars : List Var) (ctx : List Change) (d : D) (t : Nd) : Silent t → Plays vars ctx d [t] [0] d
  | event (vars : List Var) (ctx : List Change) (d d' : D) (c : Cls) (v : Val) (cs : List Nd) (q : ℚ) :
      c ∈ events → (∀ x ∈ cs, All attached x ∧ NoDur x) → Has d cs d' → Sounds ctx d' q →
      Plays vars ctx d [.node (c, v) cs] [q] d'
  /-- a chord has at least one note -/
  | chord (vars : List Var) (ctx : List Change) (d d' : D) (v : Val) (cs : List Nd) (q : ℚ) (body n : Nd) :
      (∀ x ∈ cs, All attached x ∧ NoDur x) → Has d cs d' → Sounds ctx d' q → body ∈ cs → n ∈ body.children →
      n.val.1 = .Note → Plays vars ctx d [.node (.Chord, v) cs] [q] d'
  /-- `<>` has no length -/
  | chord0 (vars : List Var) (ctx : List Change) (d d' : D) (v : Val) (cs : List Nd) :
      (∀ x ∈ cs, All attached x ∧ NoDur x) → Has d cs d' →
      (∀ body ∈ cs, ∀ n ∈ body.children, n.val.1 ∉ events) → Plays vars ctx d [.node (.Chord, v) cs] [0] d'
  /-- `\skip 2` does not change the current duration -/
  | skip (vars : List Var) (ctx : List Change) (d : D) (v : Val) (cs : List Nd) (x s q : ℚ) :
      (∀ x ∈ cs, Silent x) → Written cs x s → Sounds ctx (x, s) q →
      Plays vars ctx d [.node (.Skip, v) cs] [q] d
  /-- `\skip { c1 }` -/
  | skipMusic (vars : List Var) (ctx : List Change) (d d' : D) (v : Val) (pre post : List Nd) (m : Nd) (q : ℚ) :
      (∀ x ∈ pre ++ post, x.val.1 ∈ comments ∧ Silent x) → m.val.1 ≠ .Duration → Plays vars ctx d [m] [q] d' →
      Plays vars ctx d [.node (.Skip, v) (pre ++ m :: post)] [q] d'
  /-- `{ ... }` -/
  | list (vars : List Var) (ctx : List Change) (d d' : D) (v : Val) (cs : List Nd) (qs : List ℚ) :
      Plays vars ctx d cs qs d' → Plays vars ctx d [.node (.MusicList, v) cs] [qs.sum] d'
  /-- `<< ... >>` -/
  | together (vars : List Var) (ctx : List Change) (d d' : D) (v : Val) (cs : List Nd) (qs : List ℚ) (q : ℚ) :
      Plays vars ctx d cs qs d' → Longest qs q → Plays vars ctx d [.node (.SimultaneousMusicList, v) cs] [q] d'
  /-- `\simultaneous { ... }` -/
  | simultaneous (vars : List Var) (ctx : List Change) (d d' : D) (v w : Val) (cs pre post : List Nd) (qs : List ℚ)
      (q : ℚ) : (∀ x ∈ pre ++ post, Silent x) → Plays vars ctx d cs qs d' → Longest qs q →
      Plays vars ctx d [.node (.Simultaneous, v) (pre ++ .node (.MusicList, w) cs :: post)] [q] d'
  /-- `\new Staff { ... }` -/
  | wrapper (vars : List Var) (ctx : List Change) (d d' : D) (c : Cls) (v : Val) (pre post : List Nd) (m : Nd) (q : ℚ) :
      c ∈ wrappers → (∀ x ∈ pre ++ post, Silent x) → Plays vars ctx d [m] [q] d' →
      Plays vars ctx d [.node (c, v) (pre ++ m :: post)] [q] d'
  /-- `\partCombine { ... } { ... }` -/
  | combine (vars : List Var) (ctx : List Change) (d d1 d2 : D) (v : Val) (pre mid post : List Nd) (m n : Nd)
      (q r : ℚ) : (∀ x ∈ pre ++ mid ++ post, Silent x) → Plays vars ctx d [m] [q] d1 →
      Plays vars ctx d1 [n] [r] d2 →
      Plays vars ctx d [.node (.PartCombine, v) (pre ++ m :: mid ++ n :: post)] [max q r] d2
  /-- `\repeat volta 2 { ... }` -/
  | volta (vars : List Var) (ctx : List Change) (d d' : D) (v : Val) (pre post : List Nd) (m : Nd) (q : ℚ) :
      (∀ x ∈ pre ++ post, Silent x) → pre.head?.map Node.Tree.val = some (.Symbol, .text "volta") →
      Plays vars ctx d [m] [q] d' → Plays vars ctx d [.node (.Repeat, v) (pre ++ m :: post)] [q] d'
  /-- `\times 2/3 { ... }` -/
  | times (vars : List Var) (ctx : List Change) (d d' : D) (v : Val) (a b : ℤ) (pre mid post : List Nd) (m : Nd) (q : ℚ) :
      (∀ x ∈ pre, x.val.1 ∈ comments) → (∀ x ∈ pre ++ mid ++ post, Silent x) → 0 ≤ a → 0 < b →
      Plays vars (.scale (a / b) :: ctx) d [m] [q] d' →
      Plays vars ctx d [.node (.Times, v) (pre ++ .node (.Fraction, .pair a b) [] :: mid ++ m :: post)] [q] d'
  /-- `\tuplet 3/2 { ... }` -/
  | tuplet (vars : List Var) (ctx : List Change) (d d' : D) (v : Val) (a b : ℤ) (pre mid post : List Nd) (m : Nd)
      (q : ℚ) : (∀ x ∈ pre, x.val.1 ∈ comments) → (∀ x ∈ pre ++ mid ++ post, Silent x) → 0 < a → 0 < b →
      Plays vars (.scale (b / a) :: ctx) d [m] [q] d' →
      Plays vars ctx d [.node (.Tuplet, v) (pre ++ .node (.Fraction, .pair a b) [] :: mid ++ m :: post)] [q] d'
  /-- `\scaleDurations 2/3 { ... }` -/
  | scale (vars : List Var) (ctx : List Change) (d d' : D) (v : Val) (n : Nd) (x : ℚ) (pre mid post : List Nd) (m : Nd)
      (q : ℚ) : (∀ x ∈ pre, x.val.1 ∈ comments) → (∀ x ∈ pre ++ mid ++ post, Silent x) → Number n x → 0 ≤ x →
      Plays vars (.scale x :: ctx) d [m] [q] d' →
      Plays vars ctx d [.node (.ScaleDurations, v) (pre ++ n :: mid ++ m :: post)] [q] d'
  /-- `\shiftDurations 1 1 { ... }` -/
  | shift (vars : List Var) (ctx : List Change) (d d' : D) (v : Val) (n1 n2 : Nd) (a b : ℤ)
      (pre mid mid2 post : List Nd) (m : Nd) (q : ℚ) : (∀ x ∈ pre ++ mid, x.val.1 ∈ comments) →
      (∀ x ∈ pre ++ mid ++ mid2 ++ post, Silent x) → Integer n1 a → Integer n2 b →
      Plays vars (.shift a b :: ctx) d [m] [q] d' →
      Plays vars ctx d [.node (.ShiftDurations, v) (pre ++ n1 :: mid ++ n2 :: mid2 ++ m :: post)] [q] d'
  /-- grace notes take no time -/
  | grace (vars : List Var) (ctx : List Change) (d d' : D) (c : Cls) (v : Val) (pre post : List Nd) (m : Nd) (q : ℚ) :
      c ∈ graces → (∀ x ∈ pre ++ post, Silent x) → Plays vars (.scale 0 :: ctx) d [m] [q] d' →
      Plays vars ctx d [.node (c, v) (pre ++ m :: post)] [0] d'
  /-- `\afterGrace c1 { d16 }` is as long as the first music; the grace notes take no time -/
  | afterGrace (vars : List Var) (ctx : List Change) (d d1 d2 : D) (v : Val) (pre mid post : List Nd) (m n : Nd)
      (q r : ℚ) : (∀ x ∈ pre, x.val.1 ∈ comments ∨ x.val.1 = .Fraction) →
      (∀ x ∈ pre ++ mid ++ post, Silent x) → m.val.1 ≠ .IdentifierRef → m.val.1 ∉ Spec.silent →
      Plays vars ctx d [m] [q] d1 → Plays vars (.scale 0 :: ctx) d1 [n] [r] d2 →
      Plays vars ctx d [.node (.AfterGrace, v) (pre ++ m :: mid ++ n :: post)] [q] d2
  /-- `\after 4 \turn` takes no time: it says when the event comes in the music that follows; it does not change the current
  duration -/
  | after (vars : List Var) (ctx : List Change) (d : D) (v : Val) (cs : List Nd) :
      (∀ x ∈ cs, Silent x ∨ (All attached x ∧ NoDur x ∧ x.val.1 ∈ posts)) → Plays vars ctx d [.node (.After, v) cs] [0] d
  /-- a variable is as long as its value, with the duration that was current where the value is -/
  | variable (vars rest : List Var) (ctx : List Change) (d d0 d1 : D) (name : String) (cs : List Nd) (t : Nd) (q : ℚ) :
      (∀ x ∈ cs, Silent x) → vars.find? (fun x => decide (x.1 = name)) = some (name, d0, t) →
      rest = (vars.dropWhile (fun x => decide (x.1 ≠ name))).tail → Plays rest ctx d0 [t] [q] d1 →
      Plays vars ctx d [.node (.IdentifierRef, .text name) cs] [q] d

/-- Blocks with settings. -/
def settings : List Cls := [.Header, .Paper, .Layout, .Midi]

/-- What can be in these. -/
def inSettings : List Cls :=
  silent ++ [.Assignment, .Identifier, .IdentifierRef, .LayoutContext, .Name, .Alias, .Accepts, .Denies, .Consists, .Remove,
    .DefaultChild, .MarkupCommand]

/-- Blocks with music. -/
def scores : List Cls := [.Book, .BookPart, .Score]

/-- The variables after the first nodes of a document, the last one first, and the current duration there.  A document
begins with a quarter note as current duration.  A variable that is assigned in a block is not known after it. -/
inductive Doc : List Nd → List Var → D → Prop
  | nil : Doc [] [] (1/4, 1)
  | music (ts : List Nd) (vars : List Var) (d d' : D) (t : Nd) (q : ℚ) : Doc ts vars d → t.val.1 ≠ .Assignment →
      Plays vars [] d [t] [q] d' → Doc (ts ++ [t]) vars d'
  /-- `name = { ... }` -/
  | assign (ts : List Nd) (vars : List Var) (d d' : D) (t : Nd) (q : ℚ) (name : String) (v w : Val) (ids : List Nd) :
      Doc ts vars d → (∀ x ∈ ids, Silent x) → Plays vars [] d [t] [q] d' →
      Doc (ts ++ [.node (.Assignment, v) [.node (.Identifier, .text name) ids, .node (.EqualSign, w) [], t]])
        ((name, d, t) :: vars) d'
  /-- `\header { ... }` -/
  | settings (ts : List Nd) (vars : List Var) (d : D) (c : Cls) (v : Val) (cs : List Nd) : Doc ts vars d →
      c ∈ Spec.settings → (∀ x ∈ cs, All inSettings x) → Doc (ts ++ [.node (c, v) cs]) vars d
  /-- `\score { ... }` -/
  | score (ts : List Nd) (vars : List Var) (d d' : D) (c : Cls) (v : Val) (cs : List Nd) (qs : List ℚ) : Doc ts vars d →
      c ∈ scores → Plays vars [] d cs qs d' → Doc (ts ++ [.node (c, v) cs]) vars d'

end Quickly.Length.Spec
