import Verif.Scheme.Model

/-!
# Constructing markup: `quickly/dom/markup.py`

The tables of parce are parameters: `isMarkup` is the regular expression `RE_LILYPOND_MARKUP_TEXT`, and the commands with their
number of arguments come from `markup_commands_nargs`.
-/

namespace Quickly.Markup

open Quickly.Scheme

/-! ## Elements, `quickly/dom/lily.py` L662-683, L2413-2453 -/

/-- The elements that are made here. `scm` is an element of `scm.py`, `hex` is `scm.Hex`. -/
inductive El where
  | markup (name : Str)
  | cmd (name : Str)
  | list
  | word (w : Str)
  | str (s : Str)
  | scheme
  | scm (e : Scheme.El)
  | hex (n : ℤ)

/-- The element for `write()`: `Markup` L2419-2421, `MarkupCommand` L2446, `MarkupList` L2431-2433, `MarkupWord` L2426, `String` L662,
`Scheme` L679; `BackslashCommand.write_head` and `String.write_head` are in `quickly/dom/base.py` L58 and L101. -/
def El.elem : El → Text.Elem
  | .markup name => { kind := .head, head := '\\' :: name, sp := { before := [], after := [' '], between := [' '], afterHead := [' '] } }
  | .cmd name => { kind := .head, head := '\\' :: name, sp := { afterHead := [' '], beforeTail := [' '], between := [' '] } }
  | .list => { kind := .block, head := ['{'], tail := ['}'], sp := { afterHead := [' '], beforeTail := [' '], between := [' '] } }
  | .word w => { kind := .head, head := w, sp := { before := [' '], after := [' '] } }
  | .str s => { kind := .head, head := Str.writeHead s }
  | .scheme => { kind := .head, head := ['#'], sp := { before := [' '], after := [' '] } }
  | .scm e => e.elem
  | .hex n => { kind := .head, head := ((writeNum .hex (.int n)).toOption).getD [] }

/-- A tree of these for `write()`. -/
def toText : Node.Tree El → Node.Tree Text.Elem
  | .node e cs => .node e.elem (go cs)
where
  /-- The children. -/
  go : List (Node.Tree El) → List (Node.Tree Text.Elem)
    | [] => []
    | c :: cs => toText c :: go cs

/-- `write()`. -/
def write (t : Node.Tree El) : Str := Text.write Text.defaultConcat (toText t)

/-- A tree of Scheme elements. -/
def lift : Node.Tree Scheme.El → Node.Tree El
  | .node e cs => .node (.scm e) (go cs)
where
  /-- The children. -/
  go : List (Node.Tree Scheme.El) → List (Node.Tree El)
    | [] => []
    | c :: cs => lift c :: go cs

/-! ## Helpers, L50-90 -/

/-- An argument of a function: a `str`, another Python value, or an element. -/
inductive Arg where
  | str (s : Str)
  | val (v : Val)
  | el (t : Node.Tree El)

/-- `_c`, L50. -/
def cmd (name : Str) (args : List (Node.Tree El)) : Node.Tree El := .node (.cmd name) args

/-- `_s`, L51. -/
def s (n : Node.Tree El) : Node.Tree El := .node .scheme [n]

/-- `_a`, L52. -/
def a (v : Val) : Node.Tree El := .node .scheme [lift (create v)]

/-- `_sym`, L54. -/
def sym (n : Str) : Node.Tree El := .node .scheme [lift (.node (.quote ['\'']) [.node (.ident n) []])]

/-- `_pair`, L55, with `scm.p` (`quickly/dom/scm.py` L264-266). -/
def pair (x y : Val) : Node.Tree El := .node .scheme [lift (.node (.quote ['\'']) [create (.tuple [x, y])])]

/-- `_auto_arg(arg)`, L77-90. The results of `scm.i`, `scm.q`, `scm.qq` and `scm.uq` are elements. -/
def autoArg (isMarkup : Str → Bool) : Arg → Node.Tree El
  | .el t => t
  | .str s => if isMarkup s then .node (.word s) [] else .node (.str s) []
  | .val (.str s) => if isMarkup s then .node (.word s) [] else .node (.str s) []
  | .val (.sym s) => lift (create (.sym s))
  | .val (.quoted q v) => lift (create (.quoted q v))
  | .val v => .node .scheme [lift (create v)]

/-- `_create_list(args)`, L66-74. -/
def createList (isMarkup : Str → Bool) : List Arg → Node.Tree El
  | [x] => autoArg isMarkup x
  | xs => .node .list (xs.map (autoArg isMarkup))

/-- An argument that is used as a child node as it is: setting the parent (`quickly/node.py` L243-245) fails if it is not an element. The
results of `scm.i` and so on are elements. -/
def child : Arg → Py (Node.Tree El)
  | .el t => .ok t
  | .val (.sym s) => .ok (lift (create (.sym s)))
  | .val (.quoted q v) => .ok (lift (create (.quoted q v)))
  | _ => .error .attributeError

/-- The first lines of `rest`, L163-164, and `note`, L209-210. -/
def duration : Arg → Py (Node.Tree El)
  | .str s => .ok (.node .list [.node (.word s) []])
  | .val (.str s) => .ok (.node .list [.node (.word s) []])
  | x => child x

/-- The functions, with the parameters that are not markup. `auto k name` are the functions that `_main` makes for a command with
`k` arguments. -/
inductive Fn where
  | markup | markuplist
  | char (n : ℤ)
  | tiedLyric (text : Str)
  | fretDiagram (s : Str)
  | fretDiagramTerse (s : Str)
  | fretDiagramVerbose
  | fromproperty (name : Str)
  | harpPedal (s : Str)
  | justifyField (name : Str)
  | justifyString (s : Str)
  | lookup (s : Str)
  | musicglyph (name : Str)
  | postscript
  | rest
  | verbatimFile (filename : Str)
  | wordwrapField (name : Str)
  | wordwrapString (s : Str)
  | note (direction : ℚ)
  | override (prop : Str) (value : Val)
  | overrideLines (prop : Str) (value : Val)
  | translate (x y : Val)
  | translateScaled (x y : Val)
  | withLink (label : Str)
  | withUrl (url : Str)
  | woodwindDiagram (instrument : Str)
  | drawSquiggleLine (sqlength x y eqend : Val)
  | epsfile (axis size filename : Val)
  | filledBox (x1 y1 x2 y2 blot : Val)
  | noteByNumber (log dotcount : ℚ) (direction : Val)
  | padToBox (x1 y1 x2 y2 : Val)
  | pageRef (label : Str)
  | withDimensions (x1 y1 x2 y2 : Val)
  | fillWithPattern (space direction : Val)
  | auto (nargs : ℕ) (name : Str)

/-- `scm.String(s)`. -/
def scmString (t : Str) : Node.Tree El := .node (.scm (.str t)) []

/-- `scm.Number(n)`, for an `int` or a `Fraction`. -/
def scmNumber (q : ℚ) : Node.Tree El := .node (.scm (.num (.frac q))) []

/-- The factories of `_main`, L295-302: with `k` arguments, `k - 1` are converted, and the others come in a list. -/
def factory (isMarkup : Str → Bool) (nargs : ℕ) (name : Str) (xs : List Arg) : Py (Node.Tree El) :=
  match nargs with
  | 0 => if xs = [] then .ok (cmd name []) else .error .typeError
  | k + 1 =>
    if 3 < k then .error .nameError
    else if xs.length < k then .error .typeError
    else .ok (cmd name ((xs.take k).map (autoArg isMarkup) ++ [createList isMarkup (xs.drop k)]))

/-- A call of a function with the remaining arguments, L93-287 and L295-302. With a wrong number of arguments, Python raises TypeError.
`c_` and `label` are not defined: NameError. -/
def call (isMarkup : Str → Bool) (f : Fn) (xs : List Arg) : Py (Node.Tree El) :=
  match f, xs with
  | .markup, xs => .ok (.node (.markup "markup".toList) [createList isMarkup xs])                              -- L93-95
  | .markuplist, xs => .ok (.node (.markup "markuplist".toList) [.node .list (xs.map (autoArg isMarkup))])       -- L98-100
  | .char n, [] => .ok (cmd "char".toList [s (.node (.hex n) [])])                                                 -- L105-106
  | .tiedLyric t, [] => .ok (cmd "tied-lyric".toList [s (scmString t)])                                             -- L109-110
  | .fretDiagram _, [] => .error .nameError                                                                       -- L113-114
  | .fretDiagramTerse _, [] => .error .nameError                                                                  -- L117-118
  | .fretDiagramVerbose, [_] => .error .nameError                                                                 -- L121-122
  | .fromproperty n, [] => .ok (cmd "fromproperty".toList [sym n])                                                  -- L125-126
  | .harpPedal t, [] => .ok (cmd "harp-pedal".toList [.node (.str t) []])                                           -- L129-130
  | .justifyField n, [] => .ok (cmd "justify-field".toList [sym n])                                                 -- L133-134
  | .justifyString t, [] => .ok (cmd "justify-string".toList [s (scmString t)])                                     -- L137-138
  | .lookup t, [] => .ok (cmd "lookup".toList [s (scmString t)])                                                    -- L141-142
  | .musicglyph t, [] => .ok (cmd "musicglyph".toList [s (scmString t)])                                            -- L145-146
  | .postscript, [.str t] => .ok (cmd "postscript".toList [s (scmString t)])                                        -- L149-152
  | .postscript, [.val (.str t)] => .ok (cmd "postscript".toList [s (scmString t)])
  | .postscript, [x] => do .ok (cmd "postscript".toList [← child x])
  | .rest, [d] => do .ok (cmd "rest".toList [← duration d])                                                         -- L155-165
  | .verbatimFile t, [] => .ok (cmd "verbatim-file".toList [s (scmString t)])                                       -- L186-187
  | .wordwrapField n, [] => .ok (cmd "wordwrap-field".toList [sym n])                                               -- L190-191
  | .wordwrapString t, [] => .ok (cmd "wordwrap-string".toList [s (scmString t)])                                   -- L194-195
  | .note dir, [d] => do .ok (cmd "note".toList [← duration d, s (scmNumber dir)])                                  -- L198-211
  | .override p v, xs => .ok (cmd "override".toList [pair (.sym p) v, createList isMarkup xs])                      -- L214-222
  | .overrideLines p v, xs => .ok (cmd "override-lines".toList [pair (.sym p) v, createList isMarkup xs])           -- L225-233
  | .translate x y, xs => .ok (cmd "translate".toList [pair x y, createList isMarkup xs])                           -- L236-237
  | .translateScaled x y, xs => .ok (cmd "translate-scaled".toList [pair x y, createList isMarkup xs])              -- L240-241
  | .withLink l, xs => .ok (cmd "with-color".toList [sym l, createList isMarkup xs])                                -- L244-245
  | .withUrl u, xs => .ok (cmd "with-url".toList [s (scmString u), createList isMarkup xs])                         -- L248-249
  | .woodwindDiagram _, [_] => .error .nameError                                                                  -- L252-253
  | .drawSquiggleLine l x y e, [] => .ok (cmd "draw-squiggle-line".toList [a l, pair x y, a e])                     -- L256-257
  | .epsfile x z f, [] => .ok (cmd "epsfile".toList [a x, a z, a f])                                                -- L260-261
  | .filledBox x1 y1 x2 y2 b, [] => .ok (cmd "filled-box".toList [pair x1 x2, pair y1 y2, a b])                     -- L264-265
  | .noteByNumber l d dir, [] => .ok (cmd "note-by-number".toList [s (scmNumber l), s (scmNumber d), a dir])        -- L268-269
  | .padToBox x1 y1 x2 y2, xs => .ok (cmd "pad-to-box".toList [pair x1 x2, pair y1 y2, createList isMarkup xs])     -- L272-273
  | .pageRef l, g :: xs => .ok (cmd "page-ref".toList [sym l, autoArg isMarkup g, createList isMarkup xs])          -- L276-277
  | .withDimensions x1 y1 x2 y2, xs =>
    .ok (cmd "with-dimensions".toList [pair x1 x2, pair y1 y2, createList isMarkup xs])                             -- L280-281
  | .fillWithPattern sp d, [p, l, r] =>
    .ok (cmd "fill-with-pattern".toList [a sp, a d, autoArg isMarkup p, autoArg isMarkup l, autoArg isMarkup r])    -- L284-287
  | .auto k name, xs => factory isMarkup k name xs
  | _, _ => .error .typeError

/-! ## `_main`, L293-326 -/

/-- `cmd.replace('-', '_')`, and `_` added to a keyword, L306-308. -/
def pyName (keyword : Str → Bool) (cmd : Str) : Str :=
  let name := cmd.map fun x => if x = '-' then '_' else x
  if keyword name then name ++ ['_'] else name

/-- The body of the loops, L306-318: nothing is done if the name exists, or if there is no factory for the number of
arguments. -/
def define (keyword : Str → Bool) (globals : List (Str × Fn)) (nargs : ℕ) (cmd : Str) : List (Str × Fn) :=
  if (globals.lookup (pyName keyword cmd)).isSome then globals
  else if nargs ≤ 4 then globals ++ [(pyName keyword cmd, .auto nargs cmd)] else globals

/-- The loops, L304-305: `table` is `markup_commands_nargs`, from number `nargs` on. -/
def main (keyword : Str → Bool) (globals : List (Str × Fn)) (nargs : ℕ) : List (List Str) → List (Str × Fn)
  | [] => globals
  | cmds :: table => main keyword (cmds.foldl (fun g cmd => define keyword g nargs cmd) globals) (nargs + 1) table

/-! ## Expressions -/

/-- An expression with these functions: a string, another value, or a call. -/
inductive Expr where
  | str (s : Str)
  | val (v : Val)
  | call (f : Fn) (args : List Expr)

/-- Its value. -/
def eval (isMarkup : Str → Bool) : Expr → Py Arg
  | .str s => .ok (.str s)
  | .val v => .ok (.val v)
  | .call f es => match all es with
    | .error e => .error e
    | .ok xs => match call isMarkup f xs with
      | .error e => .error e
      | .ok t => .ok (.el t)
where
  /-- The arguments. -/
  all : List Expr → Py (List Arg)
    | [] => .ok []
    | e :: es => match eval isMarkup e with
      | .error e => .error e
      | .ok x => match all es with
        | .error e => .error e
        | .ok xs => .ok (x :: xs)

end Quickly.Markup
