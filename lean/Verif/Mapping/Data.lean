import Verif.Mapping.Model

/-!
# The mapping tables

Generated by `tools/gen_mapping.py` from the source text.  `.num n` is the Python number
`n / 2` (so `.num 2` is 1 and also True: equal Python values are the same here).
-/

namespace Quickly.Mapping.Data

/-- The `mapping` of `lily.Accidental`, `quickly/dom/lily.py L1631-1640`. -/
def lilyAccidental : Table := [
  ("?", .str "cautionary"),
  ("!", .str "forced")
]

/-- The `mapping` of `lily.Direction`, `quickly/dom/lily.py L1898-1908`. -/
def lilyDirection : Table := [
  ("_", .num (-2)),
  ("-", .num (0)),
  ("^", .num (2))
]

/-- The `mapping` of `lily.Slur`, `quickly/dom/lily.py L1943-1946`. -/
def lilySlur : Table := [
  ("(", .str "start"),
  (")", .str "stop")
]

/-- The `mapping` of `lily.PhrasingSlur`, `quickly/dom/lily.py L1949-1952`. -/
def lilyPhrasingSlur : Table := [
  ("\\(", .str "start"),
  ("\\)", .str "stop")
]

/-- The `mapping` of `lily.Beam`, `quickly/dom/lily.py L1970-1973`. -/
def lilyBeam : Table := [
  ("[", .str "start"),
  ("]", .str "stop")
]

/-- The `mapping` of `lily.Ligature`, `quickly/dom/lily.py L1976-1979`. -/
def lilyLigature : Table := [
  ("\\[", .str "start"),
  ("\\]", .str "stop")
]

/-- The `mapping` of `lily.TextSpanner`, `quickly/dom/lily.py L1982-1985`. -/
def lilyTextSpanner : Table := [
  ("\\startTextSpan", .str "start"),
  ("\\stopTextSpan", .str "stop")
]

/-- The `mapping` of `lily.TrillSpanner`, `quickly/dom/lily.py L1988-1991`. -/
def lilyTrillSpanner : Table := [
  ("\\startTrillSpan", .str "start"),
  ("\\stopTrillSpan", .str "stop")
]

/-- The `mapping` of `lily.Melisma`, `quickly/dom/lily.py L1994-1997`. -/
def lilyMelisma : Table := [
  ("\\melisma", .str "start"),
  ("\\melismaEnd", .str "stop")
]

/-- The `mapping` of `lily.Break`, `quickly/dom/lily.py L2024-2027`. -/
def lilyBreak : Table := [
  ("\\break", .num (2)),
  ("\\noBreak", .num (0))
]

/-- The `mapping` of `lily.PageBreak`, `quickly/dom/lily.py L2030-2033`. -/
def lilyPageBreak : Table := [
  ("\\pageBreak", .num (2)),
  ("\\noPageBreak", .num (0))
]

/-- The `mapping` of `lily.PageTurn`, `quickly/dom/lily.py L2036-2042`. -/
def lilyPageTurn : Table := [
  ("\\pageTurn", .str "yes"),
  ("\\noPageTurn", .str "no"),
  ("\\allowPageTurn", .str "allow")
]

/-- The `mapping` of `lily.FigureAccidental`, `quickly/dom/lily.py L2502-2515`. -/
def lilyFigureAccidental : Table := [
  ("--", .num (-2)),
  ("-", .num (-1)),
  ("", .num (0)),
  ("+", .num (1)),
  ("++", .num (2))
]

/-- The `mapping` of `lily.FigureAlteration`, `quickly/dom/lily.py L2518-2530`. -/
def lilyFigureAlteration : Table := [
  ("\\+", .str "augmented"),
  ("/", .str "diminished"),
  ("\\\\", .str "raised"),
  ("\\!", .str "end-of-line")
]

/-- The `mapping` of `lily.VoiceN`, `quickly/dom/lily.py L2842-2851`. -/
def lilyVoiceN : Table := [
  ("\\voiceOne", .num (2)),
  ("\\voiceTwo", .num (4)),
  ("\\voiceThree", .num (6)),
  ("\\voiceFour", .num (8)),
  ("\\voiceFive", .num (10)),
  ("\\voiceSix", .num (12))
]

/-- The `mapping` of `lily.GrobDirection`, `quickly/dom/lily.py L2854-2941`. -/
def lilyGrobDirection : Table := [
  ("\\arpeggioArrowDown", .pair "ArpeggioArrow" (.num (-2))),
  ("\\arpeggioArrowUp", .pair "ArpeggioArrow" (.num (2))),
  ("\\bassFigureStaffAlignmentDown", .pair "BassFigureStaffAlignment" (.num (-2))),
  ("\\bassFigureStaffAlignmentNeutral", .pair "BassFigureStaffAlignment" (.num (0))),
  ("\\bassFigureStaffAlignmentUp", .pair "BassFigureStaffAlignment" (.num (2))),
  ("\\dotsDown", .pair "Dots" (.num (-2))),
  ("\\dotsNeutral", .pair "Dots" (.num (0))),
  ("\\dotsUp", .pair "Dots" (.num (2))),
  ("\\dynamicDown", .pair "Dynamic" (.num (-2))),
  ("\\dynamicNeutral", .pair "Dynamic" (.num (0))),
  ("\\dynamicUp", .pair "Dynamic" (.num (2))),
  ("\\phrasingSlurDown", .pair "PhrasingSlur" (.num (-2))),
  ("\\phrasingSlurNeutral", .pair "PhrasingSlur" (.num (0))),
  ("\\phrasingSlurUp", .pair "PhrasingSlur" (.num (2))),
  ("\\slurDown", .pair "Slur" (.num (-2))),
  ("\\slurNeutral", .pair "Slur" (.num (0))),
  ("\\slurUp", .pair "Slur" (.num (2))),
  ("\\stemDown", .pair "Stem" (.num (-2))),
  ("\\stemNeutral", .pair "Stem" (.num (0))),
  ("\\stemUp", .pair "Stem" (.num (2))),
  ("\\textSpannerDown", .pair "TextSpanner" (.num (-2))),
  ("\\textSpannerNeutral", .pair "TextSpanner" (.num (0))),
  ("\\textSpannerUp", .pair "TextSpanner" (.num (2))),
  ("\\tieDown", .pair "Tie" (.num (-2))),
  ("\\tieNeutral", .pair "Tie" (.num (0))),
  ("\\tieUp", .pair "Tie" (.num (2))),
  ("\\tupletDown", .pair "Tuplet" (.num (-2))),
  ("\\tupletNeutral", .pair "Tuplet" (.num (0))),
  ("\\tupletUp", .pair "Tuplet" (.num (2)))
]

/-- The `mapping` of `lily.GrobStyle`, `quickly/dom/lily.py L2944-3017`. -/
def lilyGrobStyle : Table := [
  ("\\phrasingSlurDashed", .pair "PhrasingSlur" (.str "dashed")),
  ("\\phrasingSlurDotted", .pair "PhrasingSlur" (.str "dotted")),
  ("\\phrasingSlurHalfDashed", .pair "PhrasingSlur" (.str "half_dashed")),
  ("\\phrasingSlurHalfSolid", .pair "PhrasingSlur" (.str "half_solid")),
  ("\\phrasingSlurSolid", .pair "PhrasingSlur" (.str "solid")),
  ("\\slurDashed", .pair "Slur" (.str "dashed")),
  ("\\slurDotted", .pair "Slur" (.str "dotted")),
  ("\\slurHalfDashed", .pair "Slur" (.str "half_dashed")),
  ("\\slurHalfSolid", .pair "Slur" (.str "half_solid")),
  ("\\slurSolid", .pair "Slur" (.str "solid")),
  ("\\tieDashed", .pair "Tie" (.str "dashed")),
  ("\\tieDotted", .pair "Tie" (.str "dotted")),
  ("\\tieHalfDashed", .pair "Tie" (.str "half_dashed")),
  ("\\tieHalfSolid", .pair "Tie" (.str "half_solid")),
  ("\\tieSolid", .pair "Tie" (.str "solid"))
]

/-- The `mapping` of `lily.GrobDashPattern`, `quickly/dom/lily.py L3020-3029`. -/
def lilyGrobDashPattern : Table := [
  ("\\phrasingSlurDashPattern", .str "PhrasingSlur"),
  ("\\slurDashPattern", .str "Slur"),
  ("\\tieDashPattern", .str "Tie")
]

/-- The `mapping` of `lily.Toggle`, `quickly/dom/lily.py L3032-3109`. -/
def lilyToggle : Table := [
  ("\\autoBeamOn", .pair "autoBeam" (.num (2))),
  ("\\autoBeamOff", .pair "autoBeam" (.num (0))),
  ("\\autoBreaksOn", .pair "autoBreaks" (.num (2))),
  ("\\autoBreaksOff", .pair "autoBreaks" (.num (0))),
  ("\\autoLineBreaksOn", .pair "autoLineBreaks" (.num (2))),
  ("\\autoLineBreaksOff", .pair "autoLineBreaks" (.num (0))),
  ("\\autoPageBreaksOn", .pair "autoPageBreaks" (.num (2))),
  ("\\autoPageBreaksOff", .pair "autoPageBreaks" (.num (0))),
  ("\\balloonLengthOn", .pair "balloonLength" (.num (2))),
  ("\\balloonLengthOff", .pair "balloonLength" (.num (0))),
  ("\\bassFigureExtendersOn", .pair "bassFigureExtenders" (.num (2))),
  ("\\bassFigureExtendersOff", .pair "bassFigureExtenders" (.num (0))),
  ("\\cadenzaOn", .pair "cadenza" (.num (2))),
  ("\\cadenzaOff", .pair "cadenza" (.num (0))),
  ("\\deadNotesOn", .pair "deadNotes" (.num (2))),
  ("\\deadNotesOff", .pair "deadNotes" (.num (0))),
  ("\\easyHeadsOn", .pair "easyHeads" (.num (2))),
  ("\\easyHeadsOff", .pair "easyHeads" (.num (0))),
  ("\\improvisationOn", .pair "improvisation" (.num (2))),
  ("\\improvisationOff", .pair "improvisation" (.num (0))),
  ("\\harmonicsOn", .pair "harmonics" (.num (2))),
  ("\\harmonicsOff", .pair "harmonics" (.num (0))),
  ("\\kievanOn", .pair "kievan" (.num (2))),
  ("\\kievanOff", .pair "kievan" (.num (0))),
  ("\\markLengthOn", .pair "markLength" (.num (2))),
  ("\\markLengthOff", .pair "markLength" (.num (0))),
  ("\\mergeDifferentlyDottedOn", .pair "mergeDifferentlyDotted" (.num (2))),
  ("\\mergeDifferentlyDottedOff", .pair "mergeDifferentlyDotted" (.num (0))),
  ("\\mergeDifferentlyHeadedOn", .pair "mergeDifferentlyHeaded" (.num (2))),
  ("\\mergeDifferentlyHeadedOff", .pair "mergeDifferentlyHeaded" (.num (0))),
  ("\\palmMuteOn", .pair "palmMute" (.num (2))),
  ("\\palmMuteOff", .pair "palmMute" (.num (0))),
  ("\\pointAndClickOn", .pair "pointAndClick" (.num (2))),
  ("\\pointAndClickOff", .pair "pointAndClick" (.num (0))),
  ("\\predefinedFretboardsOn", .pair "predefinedFretboards" (.num (2))),
  ("\\predefinedFretboardsOff", .pair "predefinedFretboards" (.num (0))),
  ("\\sostenutoOn", .pair "sostenuto" (.num (2))),
  ("\\sostenutoOff", .pair "sostenuto" (.num (0))),
  ("\\sustainOn", .pair "sustain" (.num (2))),
  ("\\sustainOff", .pair "sustain" (.num (0))),
  ("\\textLengthOn", .pair "textLength" (.num (2))),
  ("\\textLengthOff", .pair "textLength" (.num (0))),
  ("\\xNotesOn", .pair "xNotes" (.num (2))),
  ("\\xNotesOff", .pair "xNotes" (.num (0)))
]

/-- The `mapping` of `lily.Unit`, `quickly/dom/lily.py L3144-3159`. -/
def lilyUnit : Table := [
  ("\\mm", .str "mm"),
  ("\\cm", .str "cm"),
  ("\\in", .str "in"),
  ("\\pt", .str "pt")
]

/-- All mapping element classes with their tables. -/
def tables : List (String × Table) := [
  ("lily.Accidental", lilyAccidental),
  ("lily.Direction", lilyDirection),
  ("lily.Slur", lilySlur),
  ("lily.PhrasingSlur", lilyPhrasingSlur),
  ("lily.Beam", lilyBeam),
  ("lily.Ligature", lilyLigature),
  ("lily.TextSpanner", lilyTextSpanner),
  ("lily.TrillSpanner", lilyTrillSpanner),
  ("lily.Melisma", lilyMelisma),
  ("lily.Break", lilyBreak),
  ("lily.PageBreak", lilyPageBreak),
  ("lily.PageTurn", lilyPageTurn),
  ("lily.FigureAccidental", lilyFigureAccidental),
  ("lily.FigureAlteration", lilyFigureAlteration),
  ("lily.VoiceN", lilyVoiceN),
  ("lily.GrobDirection", lilyGrobDirection),
  ("lily.GrobStyle", lilyGrobStyle),
  ("lily.GrobDashPattern", lilyGrobDashPattern),
  ("lily.Toggle", lilyToggle),
  ("lily.Unit", lilyUnit)
]

/-- The arguments of `_math_mapping = head_mapping(...)`, `quickly/lang/latex.py` L168-170: per class its name
and its texts (one head, or the keys of its mapping). -/
def mathTypes : List Cls := [
  ("tex.MathInlineParen", .head "\\("),
  ("tex.MathInlineDollar", .head "$"),
  ("tex.MathDisplayBracket", .head "\\["),
  ("tex.MathDisplayDollar", .head "$$")
]

/-- The arguments of `_rest_mapping = head_mapping(...)`, `quickly/lang/lilypond.py` L884-886: per class its name
and its texts (one head, or the keys of its mapping). -/
def restTypes : List Cls := [
  ("lily.MultiMeasureRest", .head "R"),
  ("lily.Rest", .head "r"),
  ("lily.Space", .head "s")
]

/-- The arguments of `_articulations_mapping = head_mapping(...)`, `quickly/lang/lilypond.py` L920-923: per class its name
and its texts (one head, or the keys of its mapping). -/
def articulationsTypes : List Cls := [
  ("lily.Arpeggio", .head "\\arpeggio"),
  ("lily.Glissando", .head "\\glissando"),
  ("lily.LaissezVibrer", .head "\\laissezVibrer"),
  ("lily.Melisma", .mapping lilyMelisma),
  ("lily.RepeatTie", .head "\\repeatTie"),
  ("lily.TextSpanner", .mapping lilyTextSpanner),
  ("lily.TrillSpanner", .mapping lilyTrillSpanner)
]

/-- The arguments of `_chord_modifier_mapping = head_mapping(...)`, `quickly/lang/lilypond.py` L976-977: per class its name
and its texts (one head, or the keys of its mapping). -/
def chordModifierTypes : List Cls := [
  ("lily.AddSteps", .head ":"),
  ("lily.RemoveSteps", .head "^"),
  ("lily.Inversion", .head "/"),
  ("lily.AddInversion", .head "/+")
]

/-- The arguments of `_builtin_mapping = head_mapping(...)`, `quickly/lang/lilypond.py` L1059-1072: per class its name
and its texts (one head, or the keys of its mapping). -/
def builtinTypes : List Cls := [
  ("lily.Absolute", .head "\\absolute"),
  ("lily.Acciaccatura", .head "\\acciaccatura"),
  ("lily.AddQuote", .head "\\addQuote"),
  ("lily.AfterGrace", .head "\\afterGrace"),
  ("lily.Alternative", .head "\\alternative"),
  ("lily.AppendToTag", .head "\\appendToTag"),
  ("lily.Appoggiatura", .head "\\appoggiatura"),
  ("lily.Bar", .head "\\bar"),
  ("lily.Break", .mapping lilyBreak),
  ("lily.Breathe", .head "\\breathe"),
  ("lily.Clef", .head "\\clef"),
  ("lily.Default", .head "\\default"),
  ("lily.Fixed", .head "\\fixed"),
  ("lily.Grace", .head "\\grace"),
  ("lily.GrobDashPattern", .mapping lilyGrobDashPattern),
  ("lily.GrobDirection", .mapping lilyGrobDirection),
  ("lily.GrobStyle", .mapping lilyGrobStyle),
  ("lily.InStaffSegno", .head "\\inStaffSegno"),
  ("lily.KeepWithTag", .head "\\keepWithTag"),
  ("lily.Key", .head "\\key"),
  ("lily.Label", .head "\\label"),
  ("lily.Mark", .head "\\mark"),
  ("lily.OctaveCheck", .head "\\octaveCheck"),
  ("lily.Ottava", .head "\\ottava"),
  ("lily.PageBreak", .mapping lilyPageBreak),
  ("lily.PageTurn", .mapping lilyPageTurn),
  ("lily.PartCombine", .head "\\partcombine"),
  ("lily.Partial", .head "\\partial"),
  ("lily.PushToTag", .head "\\pushToTag"),
  ("lily.QuoteDuring", .head "\\quoteDuring"),
  ("lily.Relative", .head "\\relative"),
  ("lily.RemoveWithTag", .head "\\removeWithTag"),
  ("lily.Repeat", .head "\\repeat"),
  ("lily.ScaleDurations", .head "\\scaleDurations"),
  ("lily.Shape", .head "\\shape"),
  ("lily.ShiftDurations", .head "\\shiftDurations"),
  ("lily.SlashedGrace", .head "\\slashedGrace"),
  ("lily.StringTuning", .head "\\stringTuning"),
  ("lily.TagGroup", .head "\\tagGroup"),
  ("lily.Tempo", .head "\\tempo"),
  ("lily.Time", .head "\\time"),
  ("lily.Times", .head "\\times"),
  ("lily.Toggle", .mapping lilyToggle),
  ("lily.Transpose", .head "\\transpose"),
  ("lily.Transposition", .head "\\transposition"),
  ("lily.Tuplet", .head "\\tuplet"),
  ("lily.Unfolded", .head "\\unfolded"),
  ("lily.UnfoldRepeats", .head "\\unfoldRepeats"),
  ("lily.Unit", .mapping lilyUnit),
  ("lily.VoiceN", .mapping lilyVoiceN),
  ("lily.Volta", .head "\\volta"),
  ("lily.VShape", .head "\\vshape")
]

/-- The arguments of `_keyword_mapping = head_mapping(...)`, `quickly/lang/lilypond.py` L1081-1088: per class its name
and its texts (one head, or the keys of its mapping). -/
def keywordTypes : List Cls := [
  ("lily.Accepts", .head "\\accepts"),
  ("lily.Alias", .head "\\alias"),
  ("lily.Change", .head "\\change"),
  ("lily.Consists", .head "\\consists"),
  ("lily.Context", .head "\\context"),
  ("lily.DefaultChild", .head "\\defaultchild"),
  ("lily.Denies", .head "\\denies"),
  ("lily.Etc", .head "\\etc"),
  ("lily.Hide", .head "\\hide"),
  ("lily.Include", .head "\\include"),
  ("lily.Language", .head "\\language"),
  ("lily.Name", .head "\\name"),
  ("lily.New", .head "\\new"),
  ("lily.NoteMode", .head "\\notemode"),
  ("lily.Omit", .head "\\omit"),
  ("lily.Once", .head "\\once"),
  ("lily.Override", .head "\\override"),
  ("lily.Remove", .head "\\remove"),
  ("lily.Revert", .head "\\revert"),
  ("lily.Sequential", .head "\\sequential"),
  ("lily.Set", .head "\\set"),
  ("lily.Simultaneous", .head "\\simultaneous"),
  ("lily.Temporary", .head "\\temporary"),
  ("lily.Undo", .head "\\undo"),
  ("lily.Unset", .head "\\unset"),
  ("lily.Version", .head "\\version")
]

/-- All `head_mapping` calls. -/
def headMappings : List (List Cls) := [mathTypes, restTypes, articulationsTypes, chordModifierTypes, builtinTypes, keywordTypes]

end Quickly.Mapping.Data
