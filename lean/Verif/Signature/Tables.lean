import Verif.Signature.Spec
import Verif.Build.NestUnique

/-! # C83: checks of the tables of signatures -/

namespace Quickly.Signature

open Quickly.Node Quickly.Build Quickly.Build.Spec Spec

/-- All classes. -/
def allCls : List Cls :=
  [.Comment, .Music, .HandleDuration, .Durable, .Pitchable, .Reference, .ConvertUnpitchedToDuration,
  .ConvertUnpitchedToInt, .HandleAssignments, .Document, .Number, .Int, .Fraction, .Float, .Symbol, .String,
  .Scheme, .Spanner, .Block, .Book, .BookPart, .Score, .Header, .Paper, .Layout, .Midi, .With, .LayoutContext,
  .EqualSign, .Separator, .List, .Assignment, .Identifier, .IdentifierRef, .MusicFunction, .Context, .New,
  .Change, .AddQuote, .QuoteDuring, .ApplyContext, .ApplyMusic, .ApplyOutput, .Relative, .Absolute, .Fixed,
  .Transpose, .Repeat, .Alternative, .UnfoldRepeats, .Unfolded, .Volta, .Transposition, .Ottava, .MusicList,
  .SimultaneousMusicList, .Sequential, .Simultaneous, .InputMode, .LyricMode, .ChordMode, .DrumMode, .NoteMode,
  .FigureMode, .Chord, .ChordBody, .Note, .Pitch, .Unpitched, .RestType, .Rest, .MultiMeasureRest, .PitchedRest,
  .Space, .Skip, .After, .Q, .Drum, .Accidental, .Octave, .OctCheck, .OctaveCheck, .Duration, .DurationScaling,
  .LyricItem, .LyricText, .LyricExtender, .LyricHyphen, .LyricSkip, .ChordModifiers, .AddSteps, .RemoveSteps,
  .Qualifier, .Inversion, .AddInversion, .Step, .Alteration, .Articulations, .Direction, .Articulation, .Modifier,
  .RestModifier, .Fingering, .Dynamic, .Slur, .PhrasingSlur, .Tie, .LaissezVibrer, .RepeatTie, .Beam, .Ligature,
  .TextSpanner, .TrillSpanner, .Melisma, .Arpeggio, .Glissando, .Bar, .Breathe, .Break, .PageBreak, .PageTurn,
  .InStaffSegno, .PipeSymbol, .VoiceSeparator, .Label, .Mark, .Default, .Tempo, .SpannerId, .PesOrFlexa, .Tweak,
  .Tremolo, .Mode, .Key, .Clef, .Time, .Partial, .Times, .Tuplet, .ScaleDurations, .ShiftDurations, .Grace,
  .Acciaccatura, .Appoggiatura, .SlashedGrace, .AfterGrace, .PartCombine, .MultilineComment, .SinglelineComment,
  .Markup, .MarkupWord, .MarkupList, .MarkupCommand, .MarkupScore, .MarkupScoreLines, .Figure, .FigureBody,
  .FigureBracket, .FigureStep, .FigureSkip, .FigureAccidental, .FigureAlteration, .Tag, .KeepWithTag,
  .RemoveWithTag, .TagGroup, .PushToTag, .AppendToTag, .Etc, .Accepts, .Denies, .Name, .Alias, .Consists, .Remove,
  .DefaultChild, .Omit, .Hide, .Undo, .Once, .Temporary, .Override, .Revert, .Set, .Unset, .Version, .Language,
  .Include, .VoiceN, .GrobDirection, .GrobStyle, .GrobDashPattern, .Toggle, .Shape, .VShape, .StringTuning, .Unit]

theorem mem_allCls (z : Cls) : z ∈ allCls := by
  cases z <;> decide +kernel

/-- The signatures, for the two classes that depend on the head those with any other head. -/
def plainSigs (a : Cls) : List (List Entry) :=
  if a = .MusicFunction then [] else if a = .LyricMode then [[MUSIC]] else (inherited 5 a).getD []

/-- Every argument of the form can be the entry at its place. -/
def covers (a : Cls) (form : List Kind) (s : List Entry) : Bool :=
  decide (form.length ≤ s.length) &&
  (form.zip s).all fun p => allCls.all fun z => !takes a p.1 z || p.2.any fun c => isSub 5 z c

/-- The part of a form that is taken. -/
def taken (a : Cls) (form : List Kind) : List Kind := if ignores a 2 then form.take 2 else form

theorem covers_all : (allCls.all fun a => (forms a).all fun form =>
    (plainSigs a).any fun s => covers a (taken a form) s) = true := by
  decide +kernel

/-- Every entry of the signature stands for an argument of the form. -/
def within (a : Cls) (form : List Kind) (s : List Entry) : Bool :=
  decide (s.length ≤ form.length) &&
  (form.zip s).all fun p => allCls.all fun z =>
    decide (z ∈ inner) || !(p.2.any fun c => isSub 5 z c) || takes a p.1 z

theorem within_all : (allCls.all fun a => decide (a ∈ inner) ||
    ((plainSigs a).all fun s => (forms a).any fun form => within a (taken a form) s)) = true := by
  decide +kernel

/-- The argument is not taken at its place. -/
def declines (a : Cls) (form : List Kind) (ss : List (List Entry)) : Bool :=
  form.zipIdx.all fun p => p.1.members.all fun z =>
    !isComment z && (!(refuses a p.1 z || ignores a p.2) ||
      ss.all fun s => match s[p.2]? with
        | none => true
        | some e => !e.any fun c => isSub 5 z c)

theorem declines_all : (allCls.all fun a => (forms a).all fun form =>
    declines a form (plainSigs a)) = true := by
  decide +kernel

/-! ## The two commands whose signatures depend on their name -/

theorem lyricsto_ok : covers .LyricMode [.name, .music] [[.String, .Symbol], MUSIC] = true ∧
    within .LyricMode [.name, .music] [[.String, .Symbol], MUSIC] = true ∧
    declines .LyricMode [.name, .music] [[[.String, .Symbol], MUSIC]] = true := by decide +kernel

theorem bar_ok : covers .MusicFunction [.string, .scheme] [[.String], [.Scheme]] = true ∧
    within .MusicFunction [.string, .scheme] [[.String], [.Scheme]] = true ∧
    declines .MusicFunction [.string, .scheme] [[[.String], [.Scheme]]] = true := by decide +kernel

theorem sigs_eq (a : Label) : lily.sigs a = (signatures a.1 a.2).getD [] := rfl

theorem label_cases (a : Label) :
    (a = (.LyricMode, "lyricsto") ∧ lily.sigs a = [[[.String, .Symbol], MUSIC]] ∧ formsOf a = [[.name, .music]]) ∨
    (a = (.MusicFunction, "defineBarLine") ∧ lily.sigs a = [[[.String], [.Scheme]]] ∧
      formsOf a = [[.string, .scheme]]) ∨
    (lily.sigs a = plainSigs a.1 ∧ formsOf a = forms a.1) := by
  obtain ⟨a, h⟩ := a
  rw [sigs_eq]
  by_cases h1 : a = .LyricMode
  · subst h1
    by_cases hh : h = "lyricsto"
    · subst hh
      exact .inl ⟨rfl, by simp [signatures], by simp [formsOf]⟩
    · exact .inr (.inr ⟨by simp [signatures, plainSigs, hh], by simp [formsOf, hh]⟩)
  · by_cases h2 : a = .MusicFunction
    · subst h2
      by_cases hh : h = "defineBarLine"
      · subst hh
        exact .inr (.inl ⟨rfl, by simp [signatures], by simp [formsOf]⟩)
      · exact .inr (.inr ⟨by simp [signatures, plainSigs, hh], by simp [formsOf, hh]⟩)
    · exact .inr (.inr ⟨by simp [signatures, plainSigs, h1, h2], by simp [formsOf, h1, h2]⟩)

theorem covers_of (a : Label) (form : List Kind) (hf : form ∈ formsOf a) :
    ∃ s ∈ lily.sigs a, covers a.1 (taken a.1 form) s = true := by
  rcases label_cases a with ⟨rfl, h1, h2⟩ | ⟨rfl, h1, h2⟩ | ⟨h1, h2⟩
  · rw [h2, List.mem_singleton] at hf
    subst hf
    exact ⟨_, by rw [h1]; simp, lyricsto_ok.1⟩
  · rw [h2, List.mem_singleton] at hf
    subst hf
    exact ⟨_, by rw [h1]; simp, bar_ok.1⟩
  · rw [h2] at hf
    rw [h1]
    have := List.all_eq_true.1 covers_all a.1 (mem_allCls a.1)
    have := List.all_eq_true.1 this form hf
    obtain ⟨s, hs, h⟩ := List.any_eq_true.1 this
    exact ⟨s, hs, h⟩

theorem within_of (a : Label) (ha : a.1 ∉ inner) (s : List Entry) (hs : s ∈ lily.sigs a) :
    ∃ form ∈ formsOf a, within a.1 (taken a.1 form) s = true := by
  rcases label_cases a with ⟨rfl, h1, h2⟩ | ⟨rfl, h1, h2⟩ | ⟨h1, h2⟩
  · rw [h1, List.mem_singleton] at hs
    subst hs
    exact ⟨_, by rw [h2]; simp, lyricsto_ok.2.1⟩
  · rw [h1, List.mem_singleton] at hs
    subst hs
    exact ⟨_, by rw [h2]; simp, bar_ok.2.1⟩
  · rw [h1] at hs
    rw [h2]
    have := List.all_eq_true.1 within_all a.1 (mem_allCls a.1)
    rw [Bool.or_eq_true] at this
    rcases this with h | h
    · exact absurd (by simpa using h) ha
    · obtain ⟨form, hf, h⟩ := List.any_eq_true.1 (List.all_eq_true.1 h s hs)
      exact ⟨form, hf, h⟩

theorem declines_of (a : Label) (form : List Kind) (hf : form ∈ formsOf a) :
    declines a.1 form (lily.sigs a) = true := by
  rcases label_cases a with ⟨rfl, h1, h2⟩ | ⟨rfl, h1, h2⟩ | ⟨h1, h2⟩
  · rw [h2, List.mem_singleton] at hf
    subst hf
    rw [h1]
    exact lyricsto_ok.2.2
  · rw [h2, List.mem_singleton] at hf
    subst hf
    rw [h1]
    exact bar_ok.2.2
  · rw [h2] at hf
    rw [h1]
    exact List.all_eq_true.1 (List.all_eq_true.1 declines_all a.1 (mem_allCls a.1)) form hf

/-! ## Other tables -/

theorem comment_all : (allCls.all fun z => isSub 5 z .Comment == isComment z) = true := by decide +kernel

theorem ignored_eq (z : Label) : lily.ignored z = isComment z.1 := by
  show isSub 5 z.1 .Comment = isComment z.1
  simpa using List.all_eq_true.1 comment_all z.1 (mem_allCls z.1)

theorem proper_all : (allCls.all fun a => !(plainSigs a).contains []) = true := by decide +kernel

theorem lily_proper : Proper lily := by
  intro a ha
  rcases label_cases a with ⟨rfl, h1, h2⟩ | ⟨rfl, h1, h2⟩ | ⟨h1, h2⟩
  · rw [h1] at ha
    simp at ha
  · rw [h1] at ha
    simp at ha
  · rw [h1] at ha
    have := List.all_eq_true.1 proper_all a.1 (mem_allCls a.1)
    simp [ha] at this

theorem silent_all : (allCls.all fun a => decide (a = .MusicFunction) || decide (a = .LyricMode) ||
    !((inherited 5 a) == some [])) = true := by decide +kernel

theorem silent (a : Label) (h1 : lily.gen a = true) (h2 : lily.sigs a = []) : a.1 = .MusicFunction := by
  by_cases ha : a.1 = .MusicFunction
  · exact ha
  by_cases hb : a.1 = .LyricMode
  · rw [sigs_eq, signatures, if_neg ha, if_pos hb] at h2
    split_ifs at h2 <;> simp at h2
  have h3 : (signatures a.1 a.2).isSome = true := h1
  rw [sigs_eq] at h2
  rw [signatures, if_neg ha, if_neg hb] at h2 h3
  have := List.all_eq_true.1 silent_all a.1 (mem_allCls a.1)
  obtain ⟨ss, hss⟩ := Option.isSome_iff_exists.1 h3
  rw [hss] at this h2
  simp only [Option.getD_some] at h2
  subst h2
  simp [ha, hb] at this

/-- The kinds that can be a number. -/
def numeric (k : Kind) : Bool := decide (k = .number ∨ k = .ratio ∨ k = .value)

/-- An argument is converted as its kind says. -/
def converts (a : Cls) (form : List Kind) : Bool :=
  form.zipIdx.all fun p => p.1.members.all fun z => refuses a p.1 z || confuses a p.1 z ||
    match pitchArgs a with
    | some m => (form.take p.2).all (fun k => decide (k = .pitch)) &&
        if p.1 = .pitch then isSub 5 z .Note && decide (p.2 < m)
        else decide (p.1 = .music ∨ p.1 = .mode) && !(isSub 5 z .Note && decide (p.2 < m))
    | none =>
      decide (p.1 ≠ .pitch) &&
      if isSub 5 a .ConvertUnpitchedToDuration then
        if p.1 = .duration then decide (z = .Unpitched) else !isSub 5 z .Unpitched && decide (z ≠ .Unpitched)
      else decide (p.1 ≠ .duration) &&
        if isSub 5 a .ConvertUnpitchedToInt then
          if isSub 5 z .Unpitched then numeric p.1 && decide (z = .Unpitched) else decide (z ≠ .Unpitched)
        else (!numeric p.1 || decide (z ≠ .Unpitched))

theorem converts_all : (allCls.all fun a => (forms a).all fun form => converts a form) = true := by
  decide +kernel

theorem converts_lyricsto : converts .LyricMode [.name, .music] = true := by decide +kernel

theorem converts_bar : converts .MusicFunction [.string, .scheme] = true := by decide +kernel

theorem converts_of (a : Label) (form : List Kind) (hf : form ∈ formsOf a) : converts a.1 form = true := by
  rcases label_cases a with ⟨rfl, h1, h2⟩ | ⟨rfl, h1, h2⟩ | ⟨h1, h2⟩
  · rw [h2, List.mem_singleton] at hf
    subst hf
    exact converts_lyricsto
  · rw [h2, List.mem_singleton] at hf
    subst hf
    exact converts_bar
  · rw [h2] at hf
    exact List.all_eq_true.1 (List.all_eq_true.1 converts_all a.1 (mem_allCls a.1)) form hf

/-- No base class is a member of a kind. -/
theorem members_inner (k : Kind) (z : Cls) (h : z ∈ k.members) : z ∉ inner := by
  have : ∀ z ∈ k.members, z ∉ inner := by cases k <;> decide +kernel
  exact this z h

theorem members_comment (k : Kind) (z : Cls) (h : z ∈ k.members) : isComment z = false := by
  have : ∀ z ∈ k.members, isComment z = false := by cases k <;> decide +kernel
  exact this z h

theorem pitchable_all : (allCls.all fun z => !isComment z || !isSub 5 z .Pitchable) = true := by decide +kernel

end Quickly.Signature
