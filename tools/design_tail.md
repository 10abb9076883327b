
## Where the code differs from what one would expect

Proved as theorems (see the notes above): C04, C05, C07 (53 dots and more, zero), C15 (norsk, prefer_classic), C20 (far
tonics), C22 (wide scales), C23 (subtraction, missing scale), C24 (selections, bagpipe, octave checks), C25 and C56
(chords, octave checks, nesting, names that cross c), C33 and C34 (ancestors as boundaries, `in`, `&`), C38 (moved
elements), C46 to C48 (durations inside chords and markup), C50 and C51 (more scalings, octave zero), C52 (tuplet
fraction, \afterGrace, undefined variables), C53 (file: urls), C54 (booleans, comments, tuples, double assignments), C55
(names before an equal sign, comments), C57 (\skip), C58 (initial duration), C60 (changing the current node), C62
(alignment), C63 (comments after a rest, variables after a tag, comments in a tweak, chord modifiers), C64 (comments), C65 (unknown
languages), C66 (norsk, english, catalan), C67 (quotes before comments and at the end), C68 (floats in another radix), C69 (short tuples), C70 (most
selections that are not a sequence of whole siblings), C71 (comments inserted with edit()), C72 (missing brackets, comments of more lines), C73 (write() ignores Newline(), BlankLine() and the space before an element without text; write_indented() does not), C74 (an Unknown that is the root is not replaced; one without origin, as in a copy, becomes the whole text), C75 (`to_plaintext(entity_resolver)` does not pass the resolver on to the elements inside; CData is written as `<[CDATA[…]]>`, without the exclamation mark, and is skipped in the plain text), C76 (comments, CDATA sections and processing instructions in Html are left out of the tree, so `edit()` deletes them from the document; a lone quote is both the start and the end of its string), C77 (a spanner may find an end in a nested \new that does not find it back), C78 (lily.Float is not modelled. A head of another type than the kind expects is a TypeError when it is written.), C79 (unclosed options, unfinished environments, one more newline after comments in LaTeX).

Seen while reading, not part of a theorem:

* `int2letter` with an empty alphabet does not end in a defined way; `int2text` beyond its limit repeats names.
* `Transposer` results of `+` and `-` have no scale; mode names use the default scale.
* `Element.copy()` loses spacing that was set on the instance; `Node.__iadd__` does not set the parents.
* `write()` does not write the space before an element without head, the Indenter does; lines that are blank keep
  their indent; `Indenter.write` strips heads that are white space.
* `edits()` on an unmodified tree can insert white space; space wishes of new elements without text are ignored.
* `KeySignature.__repr__` raises TypeError; `Key.key_signature` swaps its arguments; `IdentifierRef.with_name` raises
  TypeError; `Reference.get_value` ignores `wait`.
* Rel2abs removes an `\octaveCheck` from the list it is iterating over, so the node after it is skipped (C25). After every note it converts all
  `\relative` commands of the whole document: a `\relative` in another one after a note is converted twice, one after a `\language` is
  read in the language before it, and one outside the selection is converted too. Comments between `\relative` and its music are lost, an empty
  `\relative` raises IndexError, a `\relative` node that is itself given to rel2abs is not converted. It tests for `lily.Pitch` where Transpose
  tests for `Pitchable`.
* LilyPond's `\relative` does not affect `\transpose` and `\chordmode` in it. Transpose reads both as relative music, and chords and octave checks in the `\transpose` as
  plain notes; Rel2abs and Abs2rel read `\chordmode` as relative music (C24, C25).
* `may_remove` in rhythm.py ignores comments between siblings. Time counts `\repeat unfold` once.
* MusicBuilder appends the duration to a Chord that may be cached by the transformer, so re-transforming could add it
  twice; `\rest` after something that is not a note is dropped, and overwrites chord modifiers; a duration after
  `\rest` is merged; the `duration` context drops comments.
* `markup.py` has names that are not defined; `with_link` makes `\with-color` (proved, C80); `create_element_from_value` drops
  the unit of a pair with a boolean.
* `score` in `lilypond.py` pops the closing brace and forgets it; `create_figure` puts alterations in a comment (proved, C81).
* The classes for tags, predefined commands and some others are not `Music`, so music after them is outside of the enclosing command;
  further arguments that are not taken, or taken for something else, are listed with C83 (proved). `ApplyContext`, `ApplyMusic` and
  `ApplyOutput` are never made by the reader, `\after` has no signature, `\partCombine` is known in the old spelling only.
* `Time.cursor_position` raises TypeError after the last token, and takes the next expression after the last note of a list (proved, C84).
* `IdentifierRef.with_name` always raises TypeError; `Reference.get_value` does not use `wait` (proved, C86).
* A chord of drum notes has length 0, `\repeat unfold` counts its music once, alternatives are not added to the repeat (proved, C87).
* An `Edit` of a selection inserts spaces outside the selection, also if it changes nothing (proved, C88).
* Transpose takes the first two nodes of `\transpose` for its pitches, also if one is a comment; with a selection inside `\relative` it edits the youngest common
  ancestor and transposes relative music as if it were absolute (C90).
* `Abs2rel` does not see a `\language` outside the lists that it converts: `\language "english" { cs' }` raises KeyError; the start pitch of
  `{ \language "english" cs' }` is written before the `\language`; a `\chordmode` is converted completely when the selection has a part of it; a selection
  inside `\relative` is read as absolute music (C91).
* Transposing an octave up and down again changes octave checks in a `\relative` with a start pitch (C92); twice up is not the same as two octaves up (C107).
* Whether music is transposed before or after `rel2abs` matters for octave checks, for `\transpose` in `\relative`, for `\relative` in `\fixed`, and if just a part is
  selected (C108).
* Whether music is transposed before or after `abs2rel` matters if start pitches are written, and for chords (C110).
* `copy()` and `copy_with_origin()` lose the spacing of elements, e.g. the line breaks of `tex.Environment.with_name` or those that `add_newlines` has set: they read
  `_spacing`, the slot is `_space`; its keys would not be accepted either (proved, C95).
* `py_dump()` of a node that has a next sibling ends with a comma, so the code is a tuple (proved, C96); spacing attributes are not in the code.
* `key_signature` of a `\key` with a variable as mode is None: value and scope are swapped (proved, C98).
* After `enter()`, `Range.ancestors()` yields the current node as its own first ancestor (proved, C102).
* Music in `\tag`, `\keepWithTag`, `\removeWithTag`, `\pushToTag`, `\appendToTag` and `\applyMusic` has length 0 (proved, C87).
* The current duration is not kept across an `\include`: `previous_duration()` looks in the same document only, and a file
  begins with a quarter note, also for LilyPond's text of a file that is included after other music
  (`C104_include_duration`).
* `abs2rel` followed by `rel2abs` moves the notes of chords: `{ c' <e' g'> }` becomes `{ c' <e'' g'''> }` (`C105_chord`).
* `abs2rel` puts a `\relative` between `\simultaneous` and its list, so notes that were together are one after another (`C106_simultaneous`).
* `html_lilypond_tag` uses variables that are not bound when neither form matches.

## Trusted base

* Lean 4.33.0, its kernel. Axioms: `propext`, `Classical.choice`, `Quot.sound` and no others (list below). No `sorry`, no
  `native_decide`, no `bv_decide`, no axioms of our own.
* That the model is the code: checked by reading; every definition cites its source, simplifications are in its comment.
* Python semantics as used: lists, slices, dicts with insertion order, generators, integers, `Fraction`, `divmod`.

Modelled, by source file:

* `quickly/numbering.py`: all functions. `quickly/datatypes.py`: `Properties`. `quickly/duration.py`: all; `frexp` on doubles.
* `quickly/pitch.py`: `Pitch`, `PitchProcessor`, octave functions, `find_language`, `follow_language`,
  `distill_preferences`; language tables are parameters.
* `quickly/key.py`: `KeySignature`, scales; `Key.key_signature`; `quickly/transpose.py`: `Transposer`, `ModeShifter`-independent parts, `Transpose`
  on notes, chords, octave checks, `\relative` and `\fixed`; `quickly/relative.py`: Rel2abs and Abs2rel, and Rel2abs with the nodes
  in memory (C25, C89), and Transpose (C90) and Abs2rel (C91) on the tree of nodes.
* `quickly/rhythm.py`: all edits, on labels with a duration and on the nodes of a document, with a proof that these agree (C100); the edited nodes are read by `quickly/time.py` for C93 and C94. `quickly/time.py`: durations of music; the durations of
  leaves are computed in C87 and given in C52; includes are not followed; a Cursor is given by its positions.
* `quickly/node.py`: `Node` and `Range` except weak references, dumping and copying with context.
* `quickly/dom/element.py`: spacing, copying, `py_dump`, `points`, `write`, `edits`, `add`, `find_*`, mapped heads, `build_tree`; how parce applies the
  edits to the document is assumed. `quickly/dom/indent.py`: `Indenter`.
* `quickly/dom/lily.py`: attributes of notes, strings (the parce lexer of strings is assumed to accept exactly escaped
  text), assignments, references and the version, language and file name attributes (`is_symbol` is a parameter); the class hierarchy, all signatures and `add_argument`; `limit_denominator` is a parameter. `quickly/dom/scope.py`: includes; `urljoin`,
  `urlparse`, the factory are parameters.
* `quickly/lang/lilypond.py`: all of `LilyPondTransform` and `MusicBuilder` (LilyPond in Html and LaTeX in C76, C79). The contexts, tokens and
  their actions are given; signatures and the number of arguments of a markup command are parameters.
* `quickly/dom/scm.py`: numbers, strings, lists, quotes and conversion of values; `repr` of floats is a parameter. `quickly/lang/scheme.py`:
  all; the dispatch on parce actions and the values that `scheme_number` computes are given.
* `quickly/lang/latex.py`, `quickly/dom/tex.py`: all, `LatexAdHocTransform` and `Environment.with_name` excepted; contexts are given, LilyPond in LaTeX is
  given as nodes.
* `quickly/dom/markup.py`: all, `score` and `score_lines` excepted; the tables and the regular expression of parce are parameters.
* `quickly/dom/htm.py`: the texts and spacing of the elements, `to_plaintext` (with a resolver that returns text), the element constructor; `html.unescape`
  is a parameter. `quickly/lang/html.py`: all but the nodes for comments, CDATA and processing instructions; the items and the actions
  of the tokens are given, LilyPond contexts are given by their nodes.
* `quickly/dom/base.py`: `Unknown`, `Newline`, `BlankLine`, `Line`, `Column`. `quickly/dom/util.py`: whitespace functions, `replace_unknown`,
  `add_newlines`, `lilypond_version`.
* `quickly/dom/edit.py`: the range that `edit_cursor` makes.
* `quickly/mapping` tables of `lily.py` (`Mapping/`): generated from the source by `tools/gen_mapping.py`.

Not modelled: the parce lexer and grammar, document I/O, weak references and object identity beyond node ids, garbage
collection, concurrency of background transforms.
