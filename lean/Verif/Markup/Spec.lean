import Verif.Markup.Model
import Verif.Scheme.Spec

/-!
# Reading markup text

A small reader of LilyPond markup, independent of the code: what a text means. `nargs` gives the number of arguments of a
command.
-/

namespace Quickly.Markup.Spec

open Quickly.Scheme Quickly.Scheme.Spec

/-- Markup: a text, a Scheme expression, a command with its arguments, a list in braces. -/
inductive M where
  | text (s : Str)
  | datum (d : Datum)
  | cmd (name : Str) (args : List M)
  | list (ms : List M)

/-- White space. -/
def isWhite (c : Char) : Bool := c == ' ' || c == '\n' || c == '\t' || c == '\r' || c == '\x0c'

/-- In the name of a command. -/
def isName (c : Char) : Bool := c.isAlpha || c == '-'

/-- In a word. -/
def isWord (c : Char) : Bool :=
  !(isWhite c || c == '{' || c == '}' || c == '"' || c == '\\' || c == '#' || c == '$' || c == '%')

/-- A word. -/
def Word (s : Str) : Prop := s ≠ [] ∧ ∀ c ∈ s, isWord c = true

mutual

/-- Read one markup expression: it, and the rest of the text. The number limits the nesting. -/
def readM (nargs : Str → Option ℕ) : ℕ → Str → Option (M × Str)
  | 0, _ => none
  | n + 1, s =>
    match s.dropWhile isWhite with
    | [] => none
    | c :: s =>
      if c = '{' then (readMs nargs n s).map fun r => (.list r.1, r.2)
      else if c = '"' then (string [] s).map fun r => (.text r.1, r.2)
      else if c = '#' then (readDatum n s).map fun r => (.datum r.1, r.2)
      else if c = '\\' then
        match nargs (s.takeWhile isName) with
        | none => none
        | some k => (readArgs nargs n k (s.dropWhile isName)).map fun r => (.cmd (s.takeWhile isName) r.1, r.2)
      else if isWord c then some (.text ((c :: s).takeWhile isWord), (c :: s).dropWhile isWord)
      else none

/-- Read this number of expressions. -/
def readArgs (nargs : Str → Option ℕ) : ℕ → ℕ → Str → Option (List M × Str)
  | _, 0, s => some ([], s)
  | 0, _ + 1, _ => none
  | n + 1, k + 1, s =>
    match readM nargs n s with
    | none => none
    | some (m, r) => (readArgs nargs n k r).map fun x => (m :: x.1, x.2)

/-- Read expressions up to the closing brace. -/
def readMs (nargs : Str → Option ℕ) : ℕ → Str → Option (List M × Str)
  | 0, _ => none
  | n + 1, s =>
    match s.dropWhile isWhite with
    | [] => none
    | c :: s =>
      if c = '}' then some ([], s)
      else match readM nargs n (c :: s) with
        | none => none
        | some (m, r) => (readMs nargs n r).map fun x => (m :: x.1, x.2)

end

/-- The text means `m`: a reader that goes deep enough reads it, and nothing is left but white space. -/
def Means (nargs : Str → Option ℕ) (s : Str) (m : M) : Prop :=
  ∃ N, ∀ n ≥ N, ∃ r, readM nargs n s = some (m, r) ∧ ∀ c ∈ r, isWhite c = true

/-! ## What the functions are for -/

/-- The number of arguments of the commands that have a function of their own, from the LilyPond documentation; `\markup` and `\markuplist`
have one. -/
def known : List (String × ℕ) :=
  [("markup", 1), ("markuplist", 1), ("char", 1), ("tied-lyric", 1), ("fret-diagram", 1), ("fret-diagram-terse", 1),
   ("fret-diagram-verbose", 1), ("fromproperty", 1), ("harp-pedal", 1), ("justify-field", 1), ("justify-string", 1), ("lookup", 1),
   ("musicglyph", 1), ("postscript", 1), ("rest", 1), ("verbatim-file", 1), ("wordwrap-field", 1), ("wordwrap-string", 1),
   ("note", 2), ("override", 2), ("override-lines", 2), ("translate", 2), ("translate-scaled", 2), ("with-link", 2), ("with-url", 2),
   ("with-color", 2), ("woodwind-diagram", 2), ("draw-squiggle-line", 3), ("epsfile", 3), ("filled-box", 3), ("note-by-number", 3),
   ("pad-to-box", 3), ("page-ref", 3), ("with-dimensions", 3), ("fill-with-pattern", 5)]

/-- The numbers of arguments are those of LilyPond. -/
def Known (nargs : Str → Option ℕ) : Prop := ∀ p ∈ known, nargs p.1.toList = some p.2

/-- More or fewer than one are a list. -/
def group : List M → M
  | [m] => m
  | ms => .list ms

/-- A string, a symbol, a number, a pair and a value in Scheme. -/
def mStr (t : Str) : M := .datum (.str t)
/-- Quoted. -/
def mSym (t : Str) : M := .datum (.quoted .quote (.sym t))
/-- Quoted. -/
def mPair (x y : Val) : M := .datum (.quoted .quote (.pair (denote x) (denote y)))
/-- A value. -/
def mVal (v : Val) : M := .datum (denote v)
/-- A number. -/
def mNum (q : ℚ) : M := .datum (.num q)

/-- What a call is for, with what the remaining arguments mean. A single argument that is a string is given also as it
is. -/
def command (f : Fn) (str : Option Str) (ms : List M) : M :=
  match f with
  | .markup => .cmd "markup".toList [group ms]
  | .markuplist => .cmd "markuplist".toList [.list ms]
  | .char n => .cmd "char".toList [mNum n]
  | .tiedLyric t => .cmd "tied-lyric".toList [mStr t]
  | .fretDiagram t => .cmd "fret-diagram".toList [mStr t]
  | .fretDiagramTerse t => .cmd "fret-diagram-terse".toList [mStr t]
  | .fretDiagramVerbose => .cmd "fret-diagram-verbose".toList ms
  | .fromproperty t => .cmd "fromproperty".toList [mSym t]
  | .harpPedal t => .cmd "harp-pedal".toList [.text t]
  | .justifyField t => .cmd "justify-field".toList [mSym t]
  | .justifyString t => .cmd "justify-string".toList [mStr t]
  | .lookup t => .cmd "lookup".toList [mStr t]
  | .musicglyph t => .cmd "musicglyph".toList [mStr t]
  | .postscript => .cmd "postscript".toList (match str with
    | some t => [mStr t]
    | none => ms)
  | .rest => .cmd "rest".toList (match str with
    | some t => [.list [.text t]]
    | none => ms)
  | .verbatimFile t => .cmd "verbatim-file".toList [mStr t]
  | .wordwrapField t => .cmd "wordwrap-field".toList [mSym t]
  | .wordwrapString t => .cmd "wordwrap-string".toList [mStr t]
  | .note dir => .cmd "note".toList ((match str with
    | some t => [.list [.text t]]
    | none => ms) ++ [mNum dir])
  | .override p v => .cmd "override".toList [mPair (.sym p) v, group ms]
  | .overrideLines p v => .cmd "override-lines".toList [mPair (.sym p) v, group ms]
  | .translate x y => .cmd "translate".toList [mPair x y, group ms]
  | .translateScaled x y => .cmd "translate-scaled".toList [mPair x y, group ms]
  | .withLink l => .cmd "with-link".toList [mSym l, group ms]
  | .withUrl u => .cmd "with-url".toList [mStr u, group ms]
  | .woodwindDiagram i => .cmd "woodwind-diagram".toList (mSym i :: ms)
  | .drawSquiggleLine l x y e => .cmd "draw-squiggle-line".toList [mVal l, mPair x y, mVal e]
  | .epsfile x z n => .cmd "epsfile".toList [mVal x, mVal z, mVal n]
  | .filledBox x1 y1 x2 y2 b => .cmd "filled-box".toList [mPair x1 x2, mPair y1 y2, mVal b]
  | .noteByNumber l d dir => .cmd "note-by-number".toList [mNum l, mNum d, mVal dir]
  | .padToBox x1 y1 x2 y2 => .cmd "pad-to-box".toList [mPair x1 x2, mPair y1 y2, group ms]
  | .pageRef l => .cmd "page-ref".toList ([mSym l] ++ ms.take 1 ++ [group (ms.drop 1)])
  | .withDimensions x1 y1 x2 y2 => .cmd "with-dimensions".toList [mPair x1 x2, mPair y1 y2, group ms]
  | .fillWithPattern sp d => .cmd "fill-with-pattern".toList ([mVal sp, mVal d] ++ ms)
  | .auto 0 name => .cmd name []
  | .auto (k + 1) name => .cmd name (ms.take k ++ [group (ms.drop k)])

/-- A single argument that is a string. -/
def single : List Expr → Option Str
  | [.str s] => some s
  | _ => none

/-- What an expression is for. -/
def say : Expr → M
  | .str s => .text s
  | .val v => mVal v
  | .call f es => command f (single es) (all es)
where
  /-- Of the arguments. -/
  all : List Expr → List M
    | [] => []
    | e :: es => say e :: all es

/-- A value that is not a string and not already an element. -/
def Plain : Val → Prop
  | .str _ => False
  | .sym _ => False
  | .quoted _ _ => False
  | v => Ok v

/-- The parameters of a function are proper: names are symbols, values are values, the command has a name and this
number of arguments; a duration is a word; and the function is not `with_link`. -/
def Proper (nargs : Str → Option ℕ) (f : Fn) (str : Option Str) : Prop :=
  match f with
  | .fromproperty t | .justifyField t | .wordwrapField t | .pageRef t => Symbol t
  | .rest | .note _ => ∀ t, str = some t → Word t
  | .override p v | .overrideLines p v => Symbol p ∧ Ok v
  | .translate x y | .translateScaled x y => Ok x ∧ Ok y
  | .withLink _ => False
  | .drawSquiggleLine l x y e => Ok l ∧ Ok x ∧ Ok y ∧ Ok e
  | .epsfile x z n => Ok x ∧ Ok z ∧ Ok n
  | .filledBox x1 y1 x2 y2 b => Ok x1 ∧ Ok y1 ∧ Ok x2 ∧ Ok y2 ∧ Ok b
  | .noteByNumber _ _ d => Ok d
  | .padToBox x1 y1 x2 y2 | .withDimensions x1 y1 x2 y2 => Ok x1 ∧ Ok y1 ∧ Ok x2 ∧ Ok y2
  | .fillWithPattern sp d => Ok sp ∧ Ok d
  | .auto k name => name ≠ [] ∧ (∀ c ∈ name, isName c = true) ∧ nargs name = some k
  | _ => True

/-- The whole expression is proper; and a string that is taken for markup is a word. -/
def ExprOk (isMarkup : Str → Bool) (nargs : Str → Option ℕ) : Expr → Prop
  | .str s => isMarkup s = true → Word s
  | .val v => Plain v
  | .call f es => Proper nargs f (single es) ∧ all es
where
  /-- The arguments. -/
  all : List Expr → Prop
    | [] => True
    | e :: es => ExprOk isMarkup nargs e ∧ all es

/-- The number of remaining arguments a function can be called with; no number for a function that always fails. -/
def Count (f : Fn) (n : ℕ) : Prop :=
  match f with
  | .markup | .markuplist | .override _ _ | .overrideLines _ _ | .translate _ _ | .translateScaled _ _ | .withLink _ | .withUrl _
  | .padToBox _ _ _ _ | .withDimensions _ _ _ _ => True
  | .postscript | .rest | .note _ => n = 1
  | .pageRef _ => 1 ≤ n
  | .fillWithPattern _ _ => n = 3
  | .fretDiagram _ | .fretDiagramTerse _ | .fretDiagramVerbose | .woodwindDiagram _ => False
  | .auto 0 _ => n = 0
  | .auto (k + 1) _ => k ≤ 3 ∧ k ≤ n
  | _ => n = 0

/-- The expression can be evaluated: the numbers of arguments are right, and `postscript`, `rest` and `note` get a string or an
element. -/
def Callable : Expr → Prop
  | .str _ => True
  | .val _ => True
  | .call f es => Count f es.length ∧ (match f with
    | .postscript | .rest | .note _ => ∀ v, es ≠ [.val v]
    | _ => True) ∧ all es
where
  /-- The arguments. -/
  all : List Expr → Prop
    | [] => True
    | e :: es => Callable e ∧ all es

/-- A name of a command: no underscore, and no hyphen at the end. -/
def Cmd (name : Str) : Prop := '_' ∉ name ∧ name.getLast? ≠ some '-'

end Quickly.Markup.Spec
