# Design of the formal model of quickly

Source: `/repo` (frescobaldi/quickly, Python). The model is Lean 4 under `/verif/lean/Verif`, one directory per topic:
`Model.lean` (the code, function by function, each definition citing file and lines), `Spec.lean` (the small
specification in plain terms, where one is needed), `Lemmas*.lean` (helpers), `Props*.lean` (the property theorems, with
examples that show that their hypotheses are met). The theorem names start with the id of the property.
`properties.jsonl`, `MANIFEST.json` and this file are written by the scripts in `tools/`.

## Conventions

* Python exceptions are values (`Except PyErr`), generators are lists, or step machines where `send` or a change while
  iterating matters. Iterators that are shared by several consumers are passed on as lists.
* Integers are `Int`/`Nat`; alterations, scales and durations are exact rationals. Floats the code uses are exact in
  binary (0.5 steps); where rounding matters (`math.frexp` of durations) the domain of doubles is modelled.
* Strings are lists of characters, or lists of tokens. Mutable trees are heaps (`Heap/`), values otherwise.
* Loops that need a bound for termination in Lean get a number of steps; it is proved to be enough, or the theorem
  is about every run that ends.
* Where the code does not do what the property says, a theorem with a concrete witness proves the difference, and the
  property is proved, with the suffix `_partial`, for the inputs where it holds.
* Wrong programs: `seeded/LOG.jsonl` has every edit of the model that was tried, and the theorems that failed.


## Properties

For every property: what is modelled and how it is proved, the status, and what the proof leaves out or refutes.

* **C01 Roman numerals round-trip** (proved; `Numbering/`) — `int2roman`/`roman2int` on `List Char`; greedy divmod table as a recursion over the table; induction on the thousands plus a finite check of the digits 0..999 lifted by a lemma. Full. str.upper modelled for ASCII.
* **C02 Letter numbering is a bijection** (proved; `Numbering/`) — `int2letter`/`letter2int` over an arbitrary duplicate-free alphabet; strong induction on n, reverse induction on the word.
* **C03 English number names denote the number** (proved; `Numbering/`) — `int2text` as a list of words; a separate denotational reading of number words as spec; case split on the recursion. Proved for every n >= 0, also beyond the documented limit; the parce word tables are assumed.
* **C04 Durations: log and dots round-trip** (proved; `Duration/`) — Exact rational arithmetic, `frexp` as the unique mantissa/exponent decomposition of a rational (float rounding is not modelled). Full on the float domain; the failure from 53 dots on is proved as C04_too_many_dots.
* **C05 log_dotcount truncates to the longest writable length that is not longer** (proved; `Duration/`) — Same model; order argument on m in [1/2,1). Full for doubles; zero gives (1, -1) (C05_zero).
* **C06 Duration strings round-trip** (proved; `Duration/`) — Text model of `to_string`/`from_string`, decimal digits of powers of two.
* **C07 is_writable is exact** (proved; `Duration/`) — Same model as C04. Full for positive doubles; is_writable(0) is True (C07_zero_is_writable).
* **C08 Shifting durations composes and inverts** (proved; `Duration/`) — Same model as C04.
* **C09 Duration transforms combine** (proved; `Duration/`) — `Transform` record of two integers and a rational. Full; the cut-off exception is shown to be needed (C09_cutoff_differs).
* **C10 Properties addition is right-biased union** (proved; `Datatypes/`) — Ordered association list as the Python `__dict__`; spec is a partial function; induction over operation histories.
* **C11 Relative and absolute octaves are inverse** (proved; `Pitch/`) — Integer arithmetic over an arbitrary positive scale length.
* **C12 A relative pitch without octave marks is the nearest one** (proved; `Pitch/`) — omega on floor division.
* **C13 MIDI numbers round-trip** (proved; `Pitch/`) — from_midi/to_midi on rationals; finite check of the 12 residues lifted to all integers through divmod. C13_to_midi_error says for which notes to_midi fails; C13_negative_note is a finding: a negative note is taken from the end of the scale in the same octave (Pitch documents the range 0..6 for notes). The example in the docstring of from_midi shows octave=1 for key 60, the code gives octave 0, as the class documents for middle C.
* **C14 Pitch comparison is a total order consistent with equality** (proved; `Pitch/`) — Lexicographic order on (Int, Int, Rat).
* **C15 Pitch names round-trip in every language** (proved; `Pitch/`) — Name tables as arbitrary lists name -> (note, alter, octave); `_suitable` with arbitrary preferences. Full; C15_two_preferences is for the two languages with two preferences, français and norsk. Norsk with prefer_classic gives the opposite of what the documentation says (C15_norsk_prefer_classic_inverted).
* **C16 Writing a pitch to a node and reading it back is lossless** (proved; `Pitch/`) — Same tables; node = (head, octave).
* **C17 Octave strings round-trip** (proved; `Pitch/`) — Strings of apostrophes and commas; induction.
* **C18 determine_language is exact** (proved; `Pitch/`) — Language tables as arbitrary data.
* **C19 Key signature accidentals** (proved; `Key/`) — Rational arithmetic over an arbitrary scale; induction over the |sf| steps.
* **C20 KeySignature.pitch names the right key** (partial; `Key/`) — The `steps` table as an overwritten 12-array; the claim fails for extreme alterations (concrete witnesses), a partial theorem covers the rest. Partial: the claim is false for far tonics such as B double sharp (C20_far_tonic_is_wrong); proved for the others, and for all usual signatures.
* **C21 Transposing moves every pitch by the same interval** (proved; `Transpose/`) — Transposer model over an arbitrary scale of seven notes (height conserved by every loop step).
* **C22 Transposed pitches are spelled with at most a double accidental** (proved; `Transpose/`) — Termination measure of both while loops; fuel-free well-founded recursion. Full for scales with steps of at most a tone; a wider scale exceeds the bound (C22_wide_scale_exceeds).
* **C23 Adding and subtracting transposers** (partial; `Transpose/`) — Sum proved; the subtraction law is false of the code (sign error), negation proved with a witness plus the partial law. Partial: subtraction has a sign error (C23_sub_does_not_revert) and the results of + and - lack the scale so cannot transpose (C23_sum_cannot_transpose).
* **C24 Transposing relative music commutes with reading it** (partial; `Relative/`, `TransposeDoc/`) — Music as a sequence of items (note, chord, octave check); induction over the sequence with a joint invariant on the two last pitches. Partial: proved for whole documents, in any number of languages that have all names in one octave each; for a selection proved when it goes on to the end of every \relative and \fixed it begins in (C24_selected_partial), and notes outside the selection are never changed (C24_unselected). False for a selection that ends inside \relative (C24_selection), for languages like bagpipe (C24_mixed_octaves), for \transpose and \chordmode in \relative (C24_transpose_in_relative, C24_chordmode_in_relative), and octave checks become wrong with a start pitch and an octave change (C24_octave_check_wrong). Uniqueness of reading and success are proved too. The document is given as music (notes with their language, chords, commands), not as nodes.
* **C25 rel2abs and abs2rel are inverse and preserve the music** (partial; `Rel2abs/`, `Relative/`) — Same music model. Partial: rel2abs is proved for the loops of the code over lists that they change (C25_document_partial), for documents in one language where no \relative is in another, every \octaveCheck in \relative is the last in its list and every \relative has one node of music; false for all others (C25_two_languages, C25_nested_twice, C25_check_skips, C25_empty_relative), when the node to convert is the \relative (C25_relative_itself), for \relative in \fixed (C25_relative_in_fixed) and \chordmode in \relative (C25_chordmode_in_relative). C25_rel2abs_partial is the same for music that is walked over once, and has none of the restrictions on languages, nesting and octave checks. abs2rel is proved for music without chords, octave checks, nested \relative and \chordmode, for all of which it is wrong (C25_abs2rel_chord, C25_abs2rel_check, C25_abs2rel_nested, C25_abs2rel_chordmode).
* **C26 descendants() is document order** (proved; `Node/`) — Rose trees with explicit-stack traversal as in the generator; refinement to recursive preorder.
* **C27 Skipping children by sending False** (proved; `Node/`) — Generator driven by an arbitrary list/oracle of sent values.
* **C28 forward() and backward() walk the rest of the document** (proved; `Node/`) — Positions as trails in a rose tree; zipper-like model of `ancestors_with_index`.
* **C29 Common ancestors and trails** (proved; `Node/`) — Trails as lists; longest common prefix.
* **C30 Parent links stay consistent** (proved; `Heap/`) — Heap model: node id -> (parent, children); invariant by induction over operations. Full for the tree changing methods of Node; `+=` is not modelled.
* **C31 equals is structural equality and copies are equal** (proved; `Node/`) — Trees with heads and types; structural induction.
* **C32 depth and height** (proved; `Node/`) — Explicit-stack loop of `height`; refinement to the recursive definition.
* **C33 Range iteration covers exactly the nodes between start and end** (partial; `Range/`) — Stack of levels as in the code; refinement to the filter of the preorder by trail order. Partial: nodes() does not yield a start node that is the ancestor (C33_start_above_not_yielded) and yields nodes for an empty range (C33_empty_range_yields), which can also be true as a truth value (C33_empty_range_true; for the other ranges C33_truth); for the other ranges the literal 'between start and end' holds (C33_between_partial), and descendants() is proved in full.
* **C34 Range membership agrees with iteration** (partial; `Range/`) — Trail comparison functions as in the code; `in` disagrees with the documentation for partial nodes (negation proved), partial theorem for the rest. Partial: `in` does not mean 'completely within' (C34_contains_not_complete); `&` is wrong for a range ending at the ancestor (C34_intersects_end_at_ancestor). All else is proved.
* **C35 extract_tree copies exactly the range** (proved; `Range/`) — Loop of extract_tree over the level stack; refinement to a recursive cut.
* **C36 Whitespace collapsing** (proved; `Text/`) — Strings as lists of characters, combine_text as a fold.
* **C37 write() outputs every text once, in order** (proved; `Text/`) — Element trees with spacing attributes; points() as in the code.
* **C38 Editing a document touches only what changed** (partial; `Edits/`) — Points with positions; the loop of edits(); replay of the edits on the document text. Partial: proved for all trees in which existing elements have not been moved; when they are moved, unmodified text is deleted and edits overlap (C38_moved_loses_text). How parce applies the edits is assumed.
* **C39 build_tree keeps all nodes in order** (proved; `Build/`) — build_tree's stack machine over arbitrary streams and signature tables.
* **C40 Ordered insertion of children** (proved; `Add/`) — List insertion as in the code.
* **C41 Spacing attributes behave like plain attributes with defaults** (proved; `Space/`) — Sparse dictionary model with bit of 'absent' values; induction over histories.
* **C42 Indented output keeps the text** (proved; `Indent/`) — Indenter state machine. Full; the output is also described exactly, line by line.
* **C43 Finding nodes by text position** (proved; `Find/`) — Trees with positions; binary search modelled as loop with lo/hi. Full for trees with positions in document order.
* **C44 Strings escape and unescape losslessly** (proved; `Str/`) — Escape/unescape on List Char; regex replaced by an equivalent scanner (stated).
* **C45 Mapped heads are one-to-one** (proved; `Mapping/`) — Tables as association lists; generic theorem plus the concrete tables.
* **C46 The implicit duration does not depend on the query order** (partial; `Rhythm/`) — Closure cache as a state; induction over query histories. Partial: false when a durable without duration contains durations, as in c^\markup \score { d8 } e (C46_wrong); proved for all other music and all query histories.
* **C47 Making rhythm explicit or implicit preserves the lengths** (proved; `Rhythm/`) — Flat sequence of durables as the code visits them. Full for music in which chord notes have no duration, and ranges that do not start inside a chord (C47_explicit_starts_inside); explicit() also adds durations to the notes inside chords (C47_explicit_inside_chord).
* **C48 Copy and paste of rhythm** (proved; `Rhythm/`) — Same. Full; pasting a copy changes music that has a note without duration before an unpitched note, which cannot be read from text (C48_paste_copy_unreadable).
* **C49 Removing durations never changes how the text is read** (proved; `Rhythm/`) — Same. Full. What is between siblings (comments) is not modelled.
* **C50 Duration and scaling properties of a node** (proved; `Attr/`) — Node with optional Duration child with optional scaling child. Full; when a node has more than one DurationScaling child the setter removes only every second one (C50_many_scalings).
* **C51 Octave, accidental and octave-check properties of a pitchable** (proved; `Attr/`) — Node with optional child fields in an ordered list. Full; octave = 0 keeps an existing Octave child (C51_octave_zero_keeps_child).
* **C52 Music length** (partial; `Time/`) — Music trees with times as rationals. Partial: Time.duration applies a scale twice when the selection starts at the fraction of a tuplet (C52_duration_wrong), \afterGrace with a variable has the length of the grace notes (C52_after_grace_variable), and an undefined variable raises TypeError (C52_undefined_variable). All else is proved, also with variables. Includes are not followed in the model; for these see C104.
* **C53 Include resolution cannot loop** (partial; `Scope/`) — Include graph as arbitrary function; parent chain of scopes; finiteness by pigeonhole. Partial: proved when the factory gives documents with the url that was asked for; the default factory does not for file: urls, then circular includes never end (C53_circular). Looking for definitions through includes ends too.
* **C54 Assigned variables** (partial; `Assign/`) — List of children with assignments; refinement to a map. Partial: proved for all histories with proper names, starting with a node in which every variable is assigned once. False for booleans (C54_bool), comments after the equal sign (C54_comment), a tuple with one part (C54_single_tuple) and variables that are assigned twice (C54_twice).
* **C55 Grouping of assignments and lyrics keeps every node** (partial; `Group/`) — Streams as lists; iterator sharing made explicit. Partial: all nodes are kept and all Assignments are of that form, but after another name the pattern is not recognized (C55_after_name), and a comment separates a syllable from its duration (C55_lyric_comment).
* **C56 Transposing fixed music and key signatures** (partial; `Relative/`) — Same music model as C24. Partial: false when the name of the \fixed pitch crosses c (C56_fixed_wrong).
* **C57 Copying explicit rhythm** (partial; `Rhythm/`) — Same model as C47. Partial: wrong after a \skip (C57_after_skip); proved for all ranges without \skip.
* **C58 Transforming rhythm** (partial; `Rhythm/`) — Same model as C47 with the Transform of C09. Partial: notes before the first written duration are not transformed (C58_initial_not_transformed).
* **C59 Variables through includes** (proved; `Scope/`) — Documents as lists of assignments and includes, an include graph as a function; the search as the code does it, against the list of all assignments in the text with includes expanded. Full, for a factory that gives documents with the url that was asked for (see C53).
* **C60 Changing a tree through a Range** (partial; `RangeEdit/`) — The innermost level of the iteration with its indices and trails; integer arithmetic. Partial: true for changes before or after the current node and for slices whose end is not before their begin. Replacing or deleting the current node skips the next one (C60_current_skips), deleting the last child makes iterating raise IndexError (C60_last_raises), replacing or deleting the end node of the range brings the next one into it (C60_end_replaced), del range[-1] does nothing (C60_del_minus_one), and nodes inserted in a node without children do not come (C60_insert_in_empty).
* **C61 Query operators on nodes** (proved; `Query/`) — Filters over the generators of C26 to C29. Full; classes are a type with a subclass relation.
* **C62 Indents of lines** (proved; `Indent/`) — The state machine of C42 against a reference semantics of layout; simulation. Full for elements that do not align; for those that align the layout is proved to be that of the reference semantics in Indent/Layout.lean, which differs from the property where a grandchild has the same index (C62_align_grandchild) and where a level was closed within the line (C62_align_shifted). Needs that indenting elements have a head and a tail (C62_not_enclosed), as all of quickly.dom have.
* **C63 Reading music** (partial; `Read/`) — MusicBuilder as a state machine over items; a grammar of correct music with printing to items and to nodes; reading inverts printing, by induction over phrases with an invariant on the pending state; counting of tokens for all input. Partial: proved for the grammar of correct music in Read/Grammar.lean, which leaves out some places for comments, and strings, variables and markup directly after a tag or tweak without a note before it. The losses are proved: C63_comment_lost, C63_tag_variable_lost, C63_tweak_comment_lost; order: C63_chord_comment_moved and comments before a duration. For all input, no token is used twice.
* **C64 Reading markup** (partial; `Read/`) — read_markup_arguments over a shared list of items; mutual induction over markup expressions. Partial: a comment directly after the markup command is taken for its argument (C64_comment_replaces); everything else proved for all expressions. The number of arguments of a command is a parameter.
* **C65 The language of pitch names at a place** (partial; `Language/`) — Both methods over the generators of C26 and C61; the last node that selects a language by document order; induction over the nodes. Partial: proved for documents where all languages are known and include has a file name, and where these nodes are not nested. Otherwise KeyError (C65_unknown_raises; the documentation says that only valid languages are followed) and AttributeError (C65_include_raises).
* **C66 Distilling preferences** (partial; `Language/`) — The loop over names, a marker per preference; induction; composed with C15 for writing. Partial: the first two parts are full, for all tables. The third is proved for nederlands, deutsch, suomi and espanol (C66_written_partial); it is false for norsk (C66_norsk_other_spelling), english (C66_english_short, C66_english_long_written) and catalan (C66_catalan_nothing).
* **C67 Reading Scheme** (partial; `Scheme/`) — `common` over items with pending quotes; an inductive type of Scheme expressions with printing to items and to nodes; reading inverts printing, by induction; sublist of tokens for all input. Partial: proved for all expressions (grammar in Scheme/Read.lean); for all input no token is used twice. A comment between a quote and its datum is quoted instead of the datum (C67_comment_quoted), a quote before a closing parenthesis is lost (C67_quote_lost), and a comment directly after the hash sign replaces the expression (C67_scheme_comment).
* **C68 Numbers in Scheme** (partial; `Scheme/`) — Digits by repeated division; a reader of numbers by Horner's scheme; induction on the digits. Partial: proved for all whole numbers and fractions in every radix, against an independent reader. A float in another radix loses its fraction (C68_float_truncated, which says exactly when it is right), and a nan other than math.nan is written as a symbol or raises (C68_other_nan). How Python writes a decimal float is a parameter.
* **C69 Python values as Scheme** (proved; `Scheme/`) — Elements with spacing of C38, written to text; an independent recursive-descent reader of Scheme; induction over values, for every text that may follow. Full for these values, against an independent Scheme reader. Floats are not in the type of values; how Python writes them is a parameter in C68. Tuples of one or no value: C69_single_tuple, C69_empty_tuple.
* **C70 Editing a selection** (partial; `Cursor/`) — `edit_cursor` composed of the searches of C43 and the ranges of C33; the places of the two nodes by the order of the tokens. Partial: proved which nodes are visited for every selection with nodes in it that does not begin inside a node and end past it and that is not one single node. Otherwise false: the nodes inside the last selected node are not visited (C70_last_chord), nothing is visited when one node is selected (C70_one_note), a blank selects the next node (C70_blank), a selection before the end of the first node selects the whole document (C70_begin), a selection after the last node everything before it (C70_end), a selection from inside a block past its end only its first node (C70_past_end), and range_from_cursor at the end the whole document (C70_cursor_at_end).
* **C71 Whitespace that elements ask for** (partial; `Wishes/`) — The texts with their places and wishes, from the tree; the points of C38 in chunks between the texts; importance is monotone under collapsing. Partial: full for write() and write_indented(). For edit() the whitespace meets the wishes or is the whitespace that was in the document (C71_edit_partial), never absent where some is asked for (C71_edit_apart); that does not suffice when a new single-line comment is inserted before an existing node on the same line, which hides the rest of the line (C71_edit_comment_hides).
* **C72 Retaining the line breaks of the source** (partial; `Newlines/`) — The scan for separators with an invariant (the current separator is the first from the furthest position on); a relation between the texts before and after, in document order; composed with C71 for what is written. Partial: what is set is proved for all documents, and that the newlines are written, by write() and write_indented(); C72_exact_partial: exactly these newlines, if elements do not ask for newlines by themselves. A document where a closing bracket is missing raises IndexError (C72_missing_tail_raises), and newlines inside a token count for the next one, so that a note on the line where a comment ends is put on a new line (C72_multiline_token).
* **C73 Newlines, blank lines, lines and columns in the document are written out** (partial; `Layout/`) — Model: the elements of base.py that only carry spacing, on top of the trees of C34/C41. write_indented() as a stream of wishes and texts (C71 lemmas); a wish anywhere in the stream is dominated by the gap it falls in. write() through the same render of fragments: the points of a subtree are a segment of the points of the tree, with only the last `after` raised. Full for write_indented(). For write() the property is false for elements without text: C73_write_ignores_newline (Newline() and BlankLine() make no difference at all) and C73_write_ignores_before. It holds for elements with a text of their own (C73_write_before_partial) and for the end of elements whose last child writes something (C73_write_after_partial).
* **C74 Regions that are not transformed are kept** (partial; `Unknown/`) — Model: trees of elements with a flag for Unknown, pos and end, replace_unknown. write() through C37; edit() through C38: the edits that are added replace a part of the text by itself, which in a sorted list of edits changes nothing. Partial: holds for descendants that have their origin. False for the node itself, which is not replaced (C74_root_stays), and for copies, which have no origin: every region then becomes the whole source text (C74_copy_whole_text).
* **C75 Html that is built with the element constructor is written properly** (proved; `Html/`) — the elements of dom/htm.py with their texts and spacing over the points model of C08/C73, the constructor and to_plaintext; Html as a small inductive type with its own serialisation; a cancellation proof for the serialisation (prefix code for escaped characters, names, attributes, nested contents) gives injectivity. C75_write: the constructor and write() give the Html of the specification. C75_injective: two different pieces of Html (names well formed, texts not cut up) are never written the same. C75_quoted: strings keep their quotes. C75_plaintext: to_plaintext() gives the texts back. Where the code differs from what one expects: C75_resolver_ignored (the entity resolver is not passed on to elements inside the element) and C75_cdata (CData writes `<[CDATA[` instead of `<![CDATA[`, and is not part of the plain text).
* **C76 Reading Html shows the document and loses nothing** (partial; `Html/`) — a grammar of documents with its parce tree (tokens and contexts) and the expected nodes; readTag, readAttrs and readString branch by branch; induction over the pieces of a document with the rest of the items; a covering relation between the tokens and the origins, and the theorems of C38 for edit(). C76_read: the tree that is read is the tree of the specification, for every document of the grammar. C76_edit_partial: without comments, edit() of the unmodified tree removes nothing and only inserts whitespace where there was none. The property does not hold for comments, CDATA sections and processing instructions: they are read, but then dropped, and C76_comments_deleted proves that edit() deletes every token of them. C76_lone_quote: a lone quote at the end of the document is head and tail of its string.
* **C77 The other end of a spanner** (proved; `Spanner/`) — the search is modelled on the generators of C28 with the predicate of the code; that the first hit is the nearest candidate follows from the order of C28. The statement about the other end compares the two searches. Spanners are assumed to have no child nodes, and to come after the id in a SpannerId (Leaves, Ids: what the reader builds); limit is not negative. Findings: a search looks into other \new nodes that are inside the scope, so the found spanner need not find the first one (C77_looks_into_other_context), and of two starts both find the same stop (C77_two_starts).
* **C78 Text elements read back what they write** (partial; `Heads/`) — check_head, write_head and read_head of the text elements by kind; the syntax of one element as a separate predicate on lists of tokens; case analysis, with the round trips of decimal numbers and octave marks. False of the code for the Scheme block comment: Guile closes it with !#, the code looks for #!, so the !# becomes part of the value and #! is written behind it (proved for all of them). The constructor accepts comments that are written as something else (text beginning with a brace, newlines, %} inside). Both are proved. C78_index_error says when reading raises IndexError.
* **C79 Reading LaTeX shows the document and loses nothing** (proved; `Tex/`) — a grammar of documents with its parce tree (tokens and contexts) and the expected nodes; the transform function by function over items; induction over the pieces with invariants on what a list of items starts and ends with (options, braces, names); the tokens of the tree; the theorems of C38 for edit(), for any tree that is made of all tokens (`Edits/Whole.lean`). C79_read and C79_tokens hold for all documents of the grammar, C79_edit and C79_newlines for those of it in which nothing is left open; C79_newlines for LilyPond music of one node each. A brace that is left open is closed by edit() (C79_open_brace). Defects that are proved: a comment directly followed by text that begins with the newline gets one more newline on every edit() (C79_comment_newline); of an option that is not closed the [ is lost and edit() raises IndexError (C79_open_option); \begin{lilypond}[options] at the end of the text raises IndexError (C79_open_lilypond); the start of an unfinished environment in another one is taken for its end (C79_begin_taken_for_end). Text between two options is dropped and is not in the grammar. A second argument in braces is not a child of the command but its sibling.
* **C80 Constructed markup means what was asked** (proved; `Markup/`) — the functions one by one, and expressions made of them; a separate reader of markup text (words, strings, Scheme data of C69, lists, commands with a given number of arguments); the text of a tree from C37 (a space between each two), then induction over the expression. C80_means holds for all expressions (exact numbers; floats are not in it), for any table of commands that agrees with LilyPond on the commands with a function of their own; the regular expression for words is a parameter, with the condition that what it accepts is a word. Defects that are proved: with_link makes \with-color (C80_with_link), fret_diagram, fret_diagram_terse, fret_diagram_verbose and woodwind_diagram raise NameError (C80_undefined). score and score_lines (which contain music) are not in it.
* **C81 Reading a LilyPond text shows it and loses nothing** (partial; `Lily/`) — a tree of contexts and tokens as input; every transform method; a grammar of correct texts with the elements they stand for, by mutual induction; tokens counted through C63, C39 and C55, whose models are used for music, arguments, assignments and lyrics. C81_no_token_twice holds for every text for which the methods do not raise. C81_read_partial, C81_nothing_lost_partial and C81_order_partial are for texts of a grammar: the music in a context is correct in the sense of C63, and only tokens with a meaning are where the methods drop unknown tokens. Contexts inside the head of a block, and Scheme, are given. Defects that are proved: the closing brace of a score is lost (C81_score_brace_lost_partial), an alteration after a comment in a figure becomes a child of the comment (C81_figure_comment), a comment between the dots of a duration is lost (C81_duration_comment_lost).
* **C82 Every command gets its arguments** (proved; `Build/`) — expressions as an inductive type with the conditions for a proper expression; uniqueness by mutual induction over two readings of the same nodes; existence from the loop, with an expression for every entry of the stack; and a direct proof that the loop makes the expressions. C82_nesting, C82_unique and C82_always together: there is exactly one list of proper expressions for every input, and build_tree makes it. The signatures are given for every node; they have at least one entry each (all signatures in the source do). A class whose signatures() yields nothing for a node takes a comment after it; that is in the model.
* **C83 The commands of LilyPond get the arguments that LilyPond documents** (partial; `Signature/`) — the class hierarchy and all signatures as tables; the documented forms as a separate table of kinds; the kernel compares the tables, for every class, form and argument; then texts of commands by induction, with C82. C83_accepts is exact for all classes but base classes and elements that are only made inside others (the list inner). The forms are our reading of LilyPond's manual and part of the specification; Scheme as an argument is only in it where the manual writes it, and for music. C83_takes_partial and C83_text_partial are partial because of the exceptions, which C83_refused proves to be exceptions. Defects that are proved: the music of \relative c' \tag #'x {...} is outside of the \relative (C83_relative_tag, the same for any command that takes music and any element of the list commands2); in \relative c4 the only note becomes the start pitch, \mark 4 has a length, single lengths as music in \tuplet and \scaleDurations become a Duration or Int (C83_confused).
* **C84 The musical time at the cursor** (proved; `TimeCursor/`) — a tree with origins and kinds, seen as the trees of C43 and of C52; the node that is found is identified by the order of tokens, then C52. C84_position and C84_selection hold for all music lists outside chords; inside a chord the moment is that of the chord (C84_in_chord), outside of music the result is None (C84_outside). Defects that are proved: after everything in the text cursor_position raises TypeError (C84_end_of_text); after the last item of a list the position is that of the next expression (C84_after_last); a selection that ends between the articulations of a note does not count the note (C84_part_of_note). Parce's Cursor is given by its positions.
* **C85 Version, language and file name of a document** (partial; `Access/`) — the attributes over lists of children; the first command from C61; document order of places; numbers in a text against a grammar of texts with numerals. C85_numbers says for every text what its numbers are; which characters are decimal digits and their values is a parameter (ASCII digits have their value, the dot is none). Python's limit of 4300 digits is not modelled. C85_attribute_partial is partial because a boolean can be set but not read back (C54_bool). Defect that is proved: Include.language raises AttributeError if there is no file name (C85_include_raises).
* **C86 References to variables** (proved; `Access/`) — head and children of a reference against the name, with C54 and C59. Defects that are proved: IdentifierRef.with_name raises TypeError for every name (C86_with_name), and Reference.get_value does not use its argument wait: it waits (C86_wait). is_symbol is a parameter with the condition that the empty text is no symbol. C86_value uses the model of C59, with names that are strings.
* **C87 The length of LilyPond music** (partial; `Length/`) — from a tree with classes and values to the kinds of C52, durations from all nodes before; a relation `Plays` after LilyPond's manual, with the current duration before and after; induction over it. C87_length_partial is partial because it says nothing of \repeat other than volta, alternatives, drum chords and figured bass, \afterGrace with a variable (C52), \tag and other commands that are not Music, negative numbers of dots, and variables in include files (C104). Defects that are proved: C87_drum_chord, C87_repeat_once, C87_alternatives, C87_mark, C87_tag (music in \tag, \keepWithTag, \applyMusic and others of that kind has length 0). Which classes are played is a table in the specification; the class hierarchy is not used in it. Trees that the parser makes are not characterised here: see C81 and C83.
* **C88 The text after editing a selection** (proved; `EditSel/`) — the model of C38 for the ancestor and positions of C70; the points split in those before, in and after the selection; the loop over each of the three parts. The range that is given to edit_range is that of C70; edit_range is a parameter. Whitespace is inserted also outside the selection, even if the edit changes nothing (C88_inserts_outside). Nodes outside the ancestor of the range, which edit_range could change too, are not written back and not modelled.
* **C89 rel2abs changes only what it has to** (partial; `PitchTime/`, `Rel2abs/`) — Nodes in a store, generators as loops with an index into lists that are looked up at every step; every state of the store is described by the sets of \relative nodes, notes and octave checks done so far; induction over the tree with a count of the \relative nodes left. Partial: the same restrictions as for C25_document_partial. False for selections: \relative music outside the selection is converted too (C89_outside_selection); comments between \relative and its music are lost (C89_comment_lost). C89_ends: the edit comes to an end for all documents, languages and selections, with one result or one exception. C89_selection holds for all of them where there is no exception; it says what can be changed or taken away, but not where. C89_every_tree shows that the hypotheses on the nodes in memory can be met for every tree.
* **C90 Transposing a document changes only its pitches** (partial; `TransposeDoc/`) — the tree of C89 with one function per generator and the loop that waits for the notes as a value; a relation between trees for the frame; a translation of trees to the music of C24, with which the walk commutes. What is changed and when it succeeds is proved for all documents and selections; what is heard (C90_sounds_partial) for documents without odd nodes in chords and comments in \transpose, with the restrictions of C24_transposes_partial. False for a comment among the pitches of \transpose (C90_comment_in_transpose) and for a selection inside \relative, which is read as absolute music (C90_inside_relative). C24_document shows that the document and the music of C24 are transposed alike.
* **C91 Converting a document to relative music** (partial; `Abs2rel/`) — the range as two trails that get shorter on the way down; an inductive relation for what becomes of a node at a place, with document order of C02 for what is in the range; a simulation by the music of C25 for what is heard. What is changed (C91_edited) is proved for all ranges of all documents, and that the second time nothing changes (C91_again) for whole documents. What is heard is proved for whole documents (C91_sounds_partial), and for all ranges with the document around them (C91_range_partial), with restrictions: no chords, octave checks, \relative and \chordmode in a list that is converted (as in C25), nothing to convert in \fixed, and \language only after the first note of a converted list. Defects that are proved: a \language outside the lists is not seen (C91_language), a start pitch in the wrong language (C91_start_language), \chordmode is converted when a part is selected (C91_chordmode_selected), a selection inside \relative is read as absolute music (C91_inside_relative).
* **C92 Transposing a document there and back** (proved; `TransposeBack/`) — both walks side by side: the second has the pitches of the first the other way round, all off by the same octaves; induction over the tree of C90. The model is that of C90. C92_back is for any two transposers that undo each other for the selected notes, C92_swapped for transposers between two pitches, where a note must not be respelled. What the conditions exclude does fail: a respelled note (C92_respelled), a note with another name than quickly gives it (C92_other_name), an octave check in \relative with a start pitch (C92_octave_check).
* **C93 Explicit and implicit durations take the same time** (proved; `RhythmTime/`) — two documents side by side with the current duration of both; a relation on the music that `Time` reads, which all its functions respect; an invariant that ties the state of each edit to the current duration, by induction over the tree. The nodes are those of C87, with the Duration as a child of the note; a range is an interval of the nodes that can have a duration. False for explicit with a range that starts inside a chord (C93_starts_inside).
* **C94 Transforming all durations scales the time** (proved; `RhythmTime/`) — the same relation with other durations: the edited one has the scaled length under every transform that surrounds it; sums and maxima of scaled lengths are scaled. The shift needs durations that can be written, before and after. What the conditions exclude does fail: a first note without a duration keeps the default one (C94_default_duration), with \shiftDurations a length can become an exception (C94_shift_durations).
* **C95 Copies of elements** (partial; `Copy/`) — an invariant of all objects that can be made, which says what slots are set per class; the points of a tree change as those of its nodes do, by induction. False for elements of which a spacing attribute differs from that of the class: copies lose it, because the code reads an attribute _spacing that does not exist (C95_spacing_lost; C95_copy_exact and C95_copy_edits_exact say what is written then). Head values are those that the constructor leaves to be written in the same way.
* **C96 Dumping elements as Python code** (proved; `Dump/`) — the loop with a stack is a recursive function; a small reader of Python calls, by induction over the tree, with whatever text follows. Python is a small reader of calls with positional arguments in Dump/Spec.lean; class names and head values are parameters. The code for a node that is not the last child of its parent ends with a comma (C96_not_last).
* **C97 Transposing keeps notes in their key** (proved; `TransposeKey/`) — how much a pitch differs from the signature depends only on its distance to the tonic in staff positions and in tones (from C19), which transposing keeps (C21); every loop of Transpose writes the transposed name (C16, and the transposer commutes with octaves), by induction over the music of C24. Documents as for C90, `Clear` (pitches in front of \relative and so on have nothing in them). A key with a triple sharp is not kept, notes in it are respelled (C97_respelled_leaves_key).
* **C98 The key signature of a \key statement** (partial; `TransposeKey/`) — the loop over the children; comments are passed over; then C97 for transposed statements. False for a mode that is a variable: the code swaps the value and the scope, and the result is None (C98_variable), or TypeError if it is not defined (C98_undefined). A list of pairs as LilyPond has it gives a signature of two accidentals (C98_pairs).
* **C99 Rhythm edits change nothing but durations** (proved; `RhythmEdits/`) — every edit is the same walk with another step; a step only adds Durations (an invariant of its state), and each change keeps the other children. The edits run on document nodes of the 200 classes of Verif.Signature, as in C93; a range is an interval of the numbers of the nodes that can have a duration.
* **C100 Rhythm edits give the nodes the right durations** (proved; `RhythmEdits/`) — a simulation: one step on a node and on its label, the walk by induction, and numbers among all nodes against numbers among the nodes that can have a duration. C100_refines is a simulation between the edits of Verif.RhythmEdits (document nodes) and those of Verif.Rhythm (labels), for which C47, C48, C49, C57 and C58 are stated. A Duration may not follow a durable as its sibling; it is a child of the node it belongs to.
* **C101 Rhythm edits one after another** (proved; `RhythmEdits/`) — the conditions of C100 and the place of the Duration are an invariant of the walk, per node and per change; the numbers of nodes depend only on what is left without the durations (C99). C101_orderly and C101_sequence are for all edits; the statements about two edits follow from C47 by C100. Nodes of the abstract class Durable are excluded (they cannot be written).
* **C102 Walking with a Range** (proved; `RangeWalk/`) — the levels of a stack that operations can leave form a chain; a walk with `upto` on the stack is the plain walk on the levels down to that node, of which the work list is known (C33). upto must be an ancestor of the current node, as documented. C102_own_ancestor: after enter(), ancestors() (and <<) yields the current node as its own first ancestor.
* **C103 dump() shows the tree** (proved; `DumpTree/`) — the loop that goes up gives the columns from the right, by induction on the place; a line gives the depth back (columns of one width, without `<`), and the depths in document order determine the tree. repr() is any function of the node and what is below it; an Assignment to a quoted name with a newline is shown in two lines, and is not covered by C103_readable.
* **C104 Music length with variables in other files** (partial; `Files/`) — searching from the place of the assignment that is found yields what the first search had yet to yield (induction on the depth of includes and the place), so following variables through files is following them in the list of the assignments in the text; the notes of a value have the same durations if its first note has one. C104_variables_partial, C104_as_text_partial and C104_length_partial are partial because the current duration is not kept across an \include, which is a defect: previous_duration() looks in the same document only (C104_include_duration). C104_length_partial also misses what C87 misses. The files exist, and are those of the Scope model: the include path is the same for all scopes.
* **C105 Converting to relative and back gives the same document** (partial; `RoundTrip/`) — induction on the tree: the note that was made relative to the last pitch reads as a pitch that, made absolute to the same last pitch, is the first (C11, C16), and the name is kept both ways; the start pitch reads as the pitch that was taken. The converted document meets what `edit_document` (C89) asks for. C105_back_partial is partial because of what the two conversions do not have in common: abs2rel leaves chords as they are and rel2abs does not (C105_chord), and rel2abs removes \octaveCheck. The specification does not tell music lists from other nodes that are neither notes nor one of the commands.
* **C106 Pitch edits do not change the time** (proved; `PitchTime/`) — a relation on documents (`Like`) that allows other pitches, and `\relative` and `\octaveCheck` in one of the two; by induction on it the trees that `Time` computes with are related (`R`: the same length, whatever surrounds them), and so are the places in them (`Place`). The edits are shown to give related documents by C90, C89 and C91. C106_rel2abs is for edits that come to an end without an exception, on documents where every \relative has its music (ShapeL). The pitch edits and Time are modelled on two views of a document; View and nd say how the second view comes from the first, for any classes, heads and octave nodes that fit (Fits). C106_simultaneous shows where it fails for Abs2rel.
* **C107 Transposing a document twice is transposing it once** (proved; `TransposeTwice/`) — the three walks side by side: the second begins with what the first writes, the third has the pitches of the first and writes those of the second, each off by some octaves (`TriLast`). Writing a pitch over another one is writing it over the first (`write_twice`), because with names in one octave a name does not depend on the octave. C107_respelled and C107_octave_check show where it fails.
* **C108 Music can be transposed before or after it is made absolute** (proved; `TransposeAbs/`) — the walk that transposes and the two that convert side by side: the pitches that the first remembers are those of the second and the third, lowered by the same octaves (`Conv`, `Rel`). Writing a pitch over the converted note and over the transposed one gives the same name (`write_after`). `edit_document` (C25) then tells what is in memory. C108_octave_check, C108_transpose_in_relative, C108_relative_in_fixed and C108_selection show where the order matters.
* **C109 Music can be made relative, transposed and made absolute again** (partial; `TransposeTrip/`) — C105 and C108 one after another: the converted document is one that C108 is about (`editL_kind`), and transposing does not depend on the identities of nodes (`visit_erase`). Partial because of what the commands do with chords (C105_chord), octave checks (C109_octave_check) and \transpose (C108_transpose_in_relative); missing is also more than one pitch language.
* **C110 Music can be transposed before or after it is made relative** (proved; `TransposeRel/`) — the walk that transposes absolute music, the one that makes it relative, and the two that come second, side by side (`Joint`): the last pitch of the relative walk over the transposed music is the transposed last pitch. Writing a pitch over the relative note and over the transposed one gives the same name (`write_after`, C108). C110_start_pitch and C110_chord show where the order matters; C109_octave_check and C108_transpose_in_relative have the commands that make it matter for octave checks and \transpose.
* **C111 Rhythm edits do not depend on the pitches** (proved; `RhythmPitch/`) — one map (`bare`) takes the pitches away; every step of an edit, every change of children and the search for the previous duration commute with it, so the walk does too; a transposed document is the same under this map (C90). bare is the document without its pitches, Plain says that no note has a child that can have a duration. The ranges are numbers of nodes that can have a duration, so they name the same nodes in both documents. With C99, which says that everything but the durations stays, this determines the result.
* **C112 Music can be edited part by part** (proved; `RhythmParts/`) — the walk of an edit without a state is a map over the nodes (`each`); two such maps are one, so the claims are about one node; C101 brings them to documents. The durations are compared (values), not the nodes inside them; by C99 everything else stays. The ranges are numbers of nodes that can have a duration. C112_implicit_parts shows that implicit() does depend on how the range is divided; C112_transform is for transform() when no exception is raised; explicit() and paste() are not treated here.
* **C113 Transforming durations twice is transforming them once** (proved; `RhythmTwice/`) — C09 for one duration; a walk that ends without an exception had none at any node, so the two walks and the walk with the sum go together; C100 and C101 bring it to documents. Fits says that a duration can be written and that the first Transform cuts off no dots. The durations are compared; by C99 everything else stays. C113_cut_off shows that the condition is needed. Nothing is said when one of the transforms raises an exception.

## Where the code differs from what one would expect

Proved as theorems (see the notes above): C04, C05, C07 (53 dots and more, zero), C15 (norsk, prefer_classic), C20 (far
tonics), C22 (wide scales), C23 (subtraction, missing scale), C24 (selections, bagpipe, octave checks), C25 and C56
(chords, octave checks, nesting, names that cross c), C33 and C34 (ancestors as boundaries, `in`, `&`), C38 (moved
elements), C46 to C48 (durations inside chords and markup), C50 and C51 (more scalings, octave zero), C52 (tuplet
fraction, \afterGrace, undefined variables), C53 (file: urls), C54 (booleans, comments, tuples, double assignments), C55
(names before an equal sign, comments), C57 (\skip), C58 (initial duration), C60 (changing the current node), C62
(alignment), C63 (comments after a rest, variables after a tag, comments in a tweak, chord modifiers), C64 (comments), C65 (unknown
languages), C66 (norsk, english, catalan), C67 (quotes before comments and at the end), C68 (floats in another radix), C69 (short tuples), C70 (most
selections that are not a sequence of whole siblings), C71 (comments inserted with edit()), C72 (missing brackets, comments of more lines), C73 (write() ignores Newline(), BlankLine() and the space before an element without text; write_indented() does not), C74 (an Unknown that is the root is not replaced; one without origin, as in a copy, becomes the whole text), C75 (`to_plaintext(entity_resolver)` does not pass the resolver on to the elements inside; CData is written as `<[CDATA[…]]>`, without the exclamation mark, and is skipped in the plain text), C76 (comments, CDATA sections and processing instructions in Html are left out of the tree, so `edit()` deletes them from the document; a lone quote is both the start and the end of its string), C77 (a spanner may find an end in a nested \new that does not find it back), C78 (lily.Float is not modelled. A head of another type than the kind expects is a TypeError when it is written.), C79 (unclosed options, unfinished environments, one more newline after comments in LaTeX).

Seen while reading, not part of a theorem:

* `int2letter` with an empty alphabet does not end in a defined way; `int2text` beyond its limit repeats names.
* `Transposer` results of `+` and `-` have no scale; mode names use the default scale.
* `Element.copy()` loses spacing that was set on the instance; `Node.__iadd__` does not set the parents.
* `write()` does not write the space before an element without head, the Indenter does; lines that are blank keep
  their indent; `Indenter.write` strips heads that are white space.
* `edits()` on an unmodified tree can insert white space; space wishes of new elements without text are ignored.
* `KeySignature.__repr__` raises TypeError; `Key.key_signature` swaps its arguments; `IdentifierRef.with_name` raises
  TypeError; `Reference.get_value` ignores `wait`.
* Rel2abs removes an `\octaveCheck` from the list it is iterating over, so the node after it is skipped (C25). After every note it converts all
  `\relative` commands of the whole document: a `\relative` in another one after a note is converted twice, one after a `\language` is
  read in the language before it, and one outside the selection is converted too. Comments between `\relative` and its music are lost, an empty
  `\relative` raises IndexError, a `\relative` node that is itself given to rel2abs is not converted. It tests for `lily.Pitch` where Transpose
  tests for `Pitchable`.
* LilyPond's `\relative` does not affect `\transpose` and `\chordmode` in it. Transpose reads both as relative music, and chords and octave checks in the `\transpose` as
  plain notes; Rel2abs and Abs2rel read `\chordmode` as relative music (C24, C25).
* `may_remove` in rhythm.py ignores comments between siblings. Time counts `\repeat unfold` once.
* MusicBuilder appends the duration to a Chord that may be cached by the transformer, so re-transforming could add it
  twice; `\rest` after something that is not a note is dropped, and overwrites chord modifiers; a duration after
  `\rest` is merged; the `duration` context drops comments.
* `markup.py` has names that are not defined; `with_link` makes `\with-color` (proved, C80); `create_element_from_value` drops
  the unit of a pair with a boolean.
* `score` in `lilypond.py` pops the closing brace and forgets it; `create_figure` puts alterations in a comment (proved, C81).
* The classes for tags, predefined commands and some others are not `Music`, so music after them is outside of the enclosing command;
  further arguments that are not taken, or taken for something else, are listed with C83 (proved). `ApplyContext`, `ApplyMusic` and
  `ApplyOutput` are never made by the reader, `\after` has no signature, `\partCombine` is known in the old spelling only.
* `Time.cursor_position` raises TypeError after the last token, and takes the next expression after the last note of a list (proved, C84).
* `IdentifierRef.with_name` always raises TypeError; `Reference.get_value` does not use `wait` (proved, C86).
* A chord of drum notes has length 0, `\repeat unfold` counts its music once, alternatives are not added to the repeat (proved, C87).
* An `Edit` of a selection inserts spaces outside the selection, also if it changes nothing (proved, C88).
* Transpose takes the first two nodes of `\transpose` for its pitches, also if one is a comment; with a selection inside `\relative` it edits the youngest common
  ancestor and transposes relative music as if it were absolute (C90).
* `Abs2rel` does not see a `\language` outside the lists that it converts: `\language "english" { cs' }` raises KeyError; the start pitch of
  `{ \language "english" cs' }` is written before the `\language`; a `\chordmode` is converted completely when the selection has a part of it; a selection
  inside `\relative` is read as absolute music (C91).
* Transposing an octave up and down again changes octave checks in a `\relative` with a start pitch (C92); twice up is not the same as two octaves up (C107).
* Whether music is transposed before or after `rel2abs` matters for octave checks, for `\transpose` in `\relative`, for `\relative` in `\fixed`, and if just a part is
  selected (C108).
* Whether music is transposed before or after `abs2rel` matters if start pitches are written, and for chords (C110).
* `copy()` and `copy_with_origin()` lose the spacing of elements, e.g. the line breaks of `tex.Environment.with_name` or those that `add_newlines` has set: they read
  `_spacing`, the slot is `_space`; its keys would not be accepted either (proved, C95).
* `py_dump()` of a node that has a next sibling ends with a comma, so the code is a tuple (proved, C96); spacing attributes are not in the code.
* `key_signature` of a `\key` with a variable as mode is None: value and scope are swapped (proved, C98).
* After `enter()`, `Range.ancestors()` yields the current node as its own first ancestor (proved, C102).
* Music in `\tag`, `\keepWithTag`, `\removeWithTag`, `\pushToTag`, `\appendToTag` and `\applyMusic` has length 0 (proved, C87).
* The current duration is not kept across an `\include`: `previous_duration()` looks in the same document only, and a file
  begins with a quarter note, also for LilyPond's text of a file that is included after other music
  (`C104_include_duration`).
* `abs2rel` followed by `rel2abs` moves the notes of chords: `{ c' <e' g'> }` becomes `{ c' <e'' g'''> }` (`C105_chord`).
* `abs2rel` puts a `\relative` between `\simultaneous` and its list, so notes that were together are one after another (`C106_simultaneous`).
* `html_lilypond_tag` uses variables that are not bound when neither form matches.

## Trusted base

* Lean 4.33.0, its kernel. Axioms: `propext`, `Classical.choice`, `Quot.sound` and no others (list below). No `sorry`, no
  `native_decide`, no `bv_decide`, no axioms of our own.
* That the model is the code: checked by reading; every definition cites its source, simplifications are in its comment.
* Python semantics as used: lists, slices, dicts with insertion order, generators, integers, `Fraction`, `divmod`.

Modelled, by source file:

* `quickly/numbering.py`: all functions. `quickly/datatypes.py`: `Properties`. `quickly/duration.py`: all; `frexp` on doubles.
* `quickly/pitch.py`: `Pitch`, `PitchProcessor`, octave functions, `find_language`, `follow_language`,
  `distill_preferences`; language tables are parameters.
* `quickly/key.py`: `KeySignature`, scales; `Key.key_signature`; `quickly/transpose.py`: `Transposer`, `ModeShifter`-independent parts, `Transpose`
  on notes, chords, octave checks, `\relative` and `\fixed`; `quickly/relative.py`: Rel2abs and Abs2rel, and Rel2abs with the nodes
  in memory (C25, C89), and Transpose (C90) and Abs2rel (C91) on the tree of nodes.
* `quickly/rhythm.py`: all edits, on labels with a duration and on the nodes of a document, with a proof that these agree (C100); the edited nodes are read by `quickly/time.py` for C93 and C94. `quickly/time.py`: durations of music; the durations of
  leaves are computed in C87 and given in C52; includes are not followed; a Cursor is given by its positions.
* `quickly/node.py`: `Node` and `Range` except weak references, dumping and copying with context.
* `quickly/dom/element.py`: spacing, copying, `py_dump`, `points`, `write`, `edits`, `add`, `find_*`, mapped heads, `build_tree`; how parce applies the
  edits to the document is assumed. `quickly/dom/indent.py`: `Indenter`.
* `quickly/dom/lily.py`: attributes of notes, strings (the parce lexer of strings is assumed to accept exactly escaped
  text), assignments, references and the version, language and file name attributes (`is_symbol` is a parameter); the class hierarchy, all signatures and `add_argument`; `limit_denominator` is a parameter. `quickly/dom/scope.py`: includes; `urljoin`,
  `urlparse`, the factory are parameters.
* `quickly/lang/lilypond.py`: all of `LilyPondTransform` and `MusicBuilder` (LilyPond in Html and LaTeX in C76, C79). The contexts, tokens and
  their actions are given; signatures and the number of arguments of a markup command are parameters.
* `quickly/dom/scm.py`: numbers, strings, lists, quotes and conversion of values; `repr` of floats is a parameter. `quickly/lang/scheme.py`:
  all; the dispatch on parce actions and the values that `scheme_number` computes are given.
* `quickly/lang/latex.py`, `quickly/dom/tex.py`: all, `LatexAdHocTransform` and `Environment.with_name` excepted; contexts are given, LilyPond in LaTeX is
  given as nodes.
* `quickly/dom/markup.py`: all, `score` and `score_lines` excepted; the tables and the regular expression of parce are parameters.
* `quickly/dom/htm.py`: the texts and spacing of the elements, `to_plaintext` (with a resolver that returns text), the element constructor; `html.unescape`
  is a parameter. `quickly/lang/html.py`: all but the nodes for comments, CDATA and processing instructions; the items and the actions
  of the tokens are given, LilyPond contexts are given by their nodes.
* `quickly/dom/base.py`: `Unknown`, `Newline`, `BlankLine`, `Line`, `Column`. `quickly/dom/util.py`: whitespace functions, `replace_unknown`,
  `add_newlines`, `lilypond_version`.
* `quickly/dom/edit.py`: the range that `edit_cursor` makes.
* `quickly/mapping` tables of `lily.py` (`Mapping/`): generated from the source by `tools/gen_mapping.py`.

Not modelled: the parce lexer and grammar, document I/O, weak references and object identity beyond node ids, garbage
collection, concurrency of background transforms.


## Axioms of every theorem

From `#print axioms` (`tools/axioms.py`). P = propext, C = Classical.choice, Q = Quot.sound, – = none.

* C01: `C01_int2roman_is_standard` (QP), `C01_roman_roundtrip` (QP), `C01_int2roman_domain` (QP), `C01_int2roman_injective` (QP), `C01_roman2int_domain` (QP)
* C02: `C02_letter_roundtrip` (QP), `C02_word_roundtrip` (CQP), `C02_empty_iff` (QP), `C02_letter2int_domain` (CQP), `C02_empty_alphabet` (P), `C02_shorter_is_smaller` (QP)
* C03: `C03_int2text_denotes` (CQP), `C03_int2text_injective` (CQP), `C03_int2text_total` (CQP), `C03_int2text_shape` (QP)
* C04: `C04_duration_value` (CQP), `C04_log_dotcount_duration` (CQP), `C04_too_many_dots` (CQP), `C04_duration_injective` (CQP)
* C05: `C05_truncation` (CQP), `C05_zero` (CQP)
* C06: `C06_string_roundtrip` (CQP), `C06_too_long` (CQP), `C06_string_truncates` (CQP)
* C07: `C07_is_writable_iff` (CQP), `C07_zero_is_writable` (CQP)
* C08: `C08_shift_value` (CQP), `C08_shift_scales` (CQP), `C08_shift_compose` (CQP), `C08_shift_inverse` (CQP)
* C09: `C09_add_assoc` (CQP), `C09_add_comm` (CQP), `C09_add_identity` (CQP), `C09_bool_iff` (CQP), `C09_transform_add` (CQP), `C09_length` (CQP), `C09_cutoff_differs` (CQP)
* C10: `C10_history` (CQP), `C10_eq_extensional` (CQP), `C10_add_assoc` (CQP), `C10_add_identity` (CQP)
* C11: `C11_relative_after_absolute` (P), `C11_absolute_after_relative` (P), `C11_only_octave` (P)
* C12: `C12_nearest` (CQP), `C12_octave_marks` (P), `C12_any_scale` (CQP)
* C13: `C13_to_midi_error` (CQP), `C13_negative_note` (CQP), `C13_round_trip` (CQP), `C13_spelling` (CQP), `C13_default_flats` (CQP)
* C14: `C14_trichotomy` (CQP), `C14_transitive` (CQP), `C14_consistent` (CQP), `C14_eq_copy` (P)
* C15: `C15_name_reads_back` (CQP), `C15_key_error` (CQP), `C15_preference` (CQP), `C15_two_preferences` (CQP), `C15_norsk_prefer_classic_inverted` (CQP)
* C16: `C16_write_read` (CQP), `C16_write_succeeds` (CQP), `C16_unchanged` (CQP), `C16_name_kept` (CQP), `C16_process` (CQP), `C16_pitchable` (CQP)
* C17: `C17_round_trip` (QP), `C17_minimal` (CQP), `C17_additive` (P), `C17_to_string` (CQP)
* C18: `C18_exact` (CQP), `C18_error` (CQP)
* C19: `C19_alterations` (CQP), `C19_accidentals` (CQP), `C19_tonic_fifth` (CQP), `C19_circle` (CQP), `C19_modes` (CQP), `C19_no_mode` (CQP), `C19_sum` (CQP)
* C20: `C20_sounds_partial` (CQP), `C20_own_accidentals` (CQP), `C20_far_tonic_is_wrong` (CQP), `C20_usual_signatures` (CQP)
* C21: `C21_same_interval` (CQP), `C21_from_to` (CQP), `C21_staff` (CQP)
* C22: `C22_terminates` (CQP), `C22_deterministic` (CQP), `C22_bounds` (CQP), `C22_major_scale` (CQP), `C22_respell_only_when_needed` (CQP), `C22_wide_scale_exceeds` (CQP)
* C23: `C23_add_interval` (CQP), `C23_add_transposes` (CQP), `C23_sum_cannot_transpose` (CQP), `C23_sub_moves` (CQP), `C23_sub_interval_partial` (CQP), `C23_add_sub_partial` (CQP), `C23_sub_does_not_revert` (CQP)
* C24: `C24_transposes_partial` (CQP), `C24_succeeds` (CQP), `C24_octave_checks_partial` (CQP), `C24_sound_unique` (CQP), `C24_selection` (CQP), `C24_transpose_in_relative` (CQP), `C24_chordmode_in_relative` (CQP), `C24_transpose_arguments` (CQP), `C24_mixed_octaves` (CQP), `C24_octave_check_wrong` (CQP), `C24_selected_partial` (CQP), `C24_unselected` (CQP), `C24_document` (CQP)
* C25: `C25_document_partial` (CQP), `C25_check_skips` (CQP), `C25_nested_twice` (CQP), `C25_two_languages` (CQP), `C25_empty_relative` (CQP), `C25_relative_itself` (CQP), `C25_rel2abs_partial` (CQP), `C25_no_relative_left` (CQP), `C25_relative_in_fixed` (CQP), `C25_chordmode_in_relative` (CQP), `C25_abs2rel_partial` (CQP), `C25_round_trip_partial` (CQP), `C25_abs2rel_chord` (CQP), `C25_abs2rel_check` (CQP), `C25_abs2rel_nested` (CQP), `C25_abs2rel_chordmode` (CQP)
* C26: `C26_descendants` (CQP), `C26_trail_order` (CQP), `C26_trail_total` (CQP)
* C27: `C27_send_false` (CQP), `C27_filter` (CQP)
* C28: `C28_forward_send` (CQP), `C28_forward` (CQP), `C28_backward` (CQP), `C28_partition` (CQP)
* C29: `C29_common_ancestor` (QP), `C29_different_trees` (QP), `C29_symmetric` (QP), `C29_with_trail` (QP)
* C30: `C30_parent_links` (CQP), `C30_one_place` (CQP), `C30_no_cycles` (CQP), `C30_take` (CQP), `C30_not_taken_out` (QP)
* C31: `C31_equals` (QP), `C31_equivalence` (QP), `C31_copy` (QP), `C31_copy_shallow` (–)
* C32: `C32_depth` (CQP), `C32_root` (QP), `C32_height` (CQP)
* C33: `C33_descendants_send` (CQP), `C33_nodes_send` (CQP), `C33_nodes` (CQP), `C33_from_nodes` (QP), `C33_between_partial` (CQP), `C33_start_above_not_yielded` (CQP), `C33_empty_range_yields` (CQP), `C33_truth` (QP), `C33_empty_range_true` (CQP)
* C34: `C34_in_range` (CQP), `C34_contains` (CQP), `C34_is_full` (CQP), `C34_completely_partial` (CQP), `C34_contains_not_complete` (CQP), `C34_intersects` (CQP), `C34_outside` (CQP), `C34_intersects_end_at_ancestor` (CQP), `C34_goto` (CQP)
* C35: `C35_extract_tree` (CQP)
* C36: `C36_collapse` (CQP), `C36_collapse_none` (–), `C36_collapse_unique` (CQP), `C36_combine` (QP), `C36_texts` (CQP), `C36_piecewise` (CQP), `C36_tab_not_piecewise` (–)
* C37: `C37_texts` (CQP), `C37_squeezed` (CQP), `C37_child` (CQP), `C37_between` (CQP), `C37_after_head` (CQP), `C37_compositional` (CQP)
* C38: `C38_sorted_partial` (CQP), `C38_text_partial` (CQP), `C38_untouched_partial` (CQP), `C38_removed_partial` (CQP), `C38_unchanged` (CQP), `C38_moved_loses_text` (–), `C38_start_after_first` (QP), `C38_deletes_outside_range` (CQP)
* C39: `C39_content` (CQP), `C39_listing` (CQP), `C39_attached` (CQP), `C39_greedy` (CQP)
* C40: `C40_keeps_children` (P), `C40_unlisted` (P), `C40_place` (CQP), `C40_respects` (CQP), `C40_history` (CQP), `C40_any_order` (CQP)
* C41: `C41_history` (QP), `C41_independent` (QP), `C41_no_memory` (QP)
* C42: `C42_no_error` (QP), `C42_lines` (QP), `C42_first_line` (QP), `C42_newline` (QP), `C42_texts` (CQP), `C42_equals_write` (CQP)
* C43: `C43_pos_end` (QP), `C43_find_child` (CQP), `C43_find_descendants` (CQP), `C43_find_descendant` (CQP), `C43_find_right` (CQP), `C43_find_left` (CQP)
* C44: `C44_round_trip` (QP), `C44_write_read` (QP), `C44_tokenization` (QP), `C44_no_open_quote` (QP)
* C45: `C45_construct` (QP), `C45_read_write` (QP), `C45_write_read` (QP), `C45_other_text` (QP), `C45_tables` (–), `C45_injective` (QP), `C45_head_mapping` (QP), `C45_head_mapping_unique` (–), `C45_head_mapping_used` (QP), `C45_commands` (CQP), `C45_numbers` (P)
* C46: `C46_getter_partial` (CQP), `C46_wrong` (CQP)
* C47: `C47_explicit_keeps` (CQP), `C47_implicit_removes` (CQP), `C47_implicit_keeps` (CQP), `C47_per_line_keeps` (CQP), `C47_per_line_no_document` (QP), `C47_explicit_all` (CQP), `C47_explicit_idempotent` (CQP), `C47_implicit_idempotent` (CQP), `C47_explicit_implicit` (CQP), `C47_explicit_inside_chord` (CQP), `C47_explicit_starts_inside` (CQP)
* C48: `C48_copy` (CQP), `C48_paste` (CQP), `C48_paste_copy` (CQP), `C48_paste_copy_unreadable` (CQP)
* C49: `C49_remove` (CQP), `C49_implicit` (CQP), `C49_paste` (CQP), `C49_scaling` (CQP)
* C50: `C50_history` (CQP), `C50_getters` (CQP), `C50_set_duration` (CQP), `C50_set_scaling` (CQP), `C50_delete` (CQP), `C50_many_scalings` (CQP), `C50_set_many_scalings` (CQP)
* C51: `C51_independent` (CQP), `C51_order` (CQP), `C51_note_order` (QP), `C51_others_stay` (CQP), `C51_octave_zero_keeps_child` (QP)
* C52: `C52_length` (CQP), `C52_sum_max` (CQP), `C52_scale` (CQP), `C52_scale_context` (CQP), `C52_variables_partial` (CQP), `C52_topmost` (CQP), `C52_position` (CQP), `C52_position_include` (CQP), `C52_right_sibling` (CQP), `C52_start_together` (CQP), `C52_duration_partial` (CQP), `C52_duration_wrong` (CQP), `C52_after_grace_variable` (CQP), `C52_undefined_variable` (CQP)
* C53: `C53_urls` (CQP), `C53_include_distinct_partial` (CQP), `C53_chain_finite_partial` (CQP), `C53_lookup_ends_partial` (CQP), `C53_circular` (CQP)
* C54: `C54_name` (P), `C54_set` (CQP), `C54_unset` (CQP), `C54_get` (CQP), `C54_variables` (P), `C54_get_set_partial` (CQP), `C54_history_partial` (CQP), `C54_refused` (P), `C54_bool` (CQP), `C54_comment` (CQP), `C54_single_tuple` (CQP), `C54_twice` (CQP), `C54_get_plain` (CQP), `C54_get_node` (CQP)
* C55: `C55_keeps_nodes` (P), `C55_assignment` (QP), `C55_no_assignment` (QP), `C55_at_end` (QP), `C55_other` (QP), `C55_everywhere_partial` (QP), `C55_only` (QP), `C55_after_name` (P), `C55_lyrics_keep` (P), `C55_lyric_duration` (P), `C55_lyric_alone` (P), `C55_duration_alone` (P), `C55_lyric_other` (P), `C55_lyric_comment` (–)
* C56: `C56_fixed_partial` (CQP), `C56_fixed_wrong` (CQP), `C56_key` (CQP)
* C57: `C57_copy_explicit_partial` (CQP), `C57_after_skip` (CQP)
* C58: `C58_transform_partial` (CQP), `C58_initial_not_transformed` (CQP)
* C59: `C59_last_assignment` (CQP), `C59_ends` (CQP)
* C60: `C60_nodes` (P), `C60_slices` (CQP), `C60_behind` (CQP), `C60_ahead_partial` (CQP), `C60_beyond` (CQP), `C60_before_start` (CQP), `C60_boundaries_partial` (CQP), `C60_start_node_partial` (CQP), `C60_end_node_partial` (CQP), `C60_start_replaced` (CQP), `C60_end_replaced` (CQP), `C60_set_item` (CQP), `C60_set_item_keeps` (CQP), `C60_set_item_boundary` (CQP), `C60_emptied` (QP), `C60_current_skips` (CQP), `C60_last_raises` (CQP), `C60_del_minus_one` (P), `C60_insert_in_empty` (CQP)
* C61: `C61_operators` (CQP), `C61_not_implemented` (QP), `C61_partition` (CQP), `C61_instances_of` (CQP)
* C62: `C62_layout` (CQP), `C62_depth` (CQP), `C62_align_grandchild` (CQP), `C62_align_shifted` (CQP), `C62_not_enclosed` (CQP)
* C63: `C63_no_token_twice` (CQP), `C63_correct_partial` (QP), `C63_nothing_lost_partial` (CQP), `C63_order_partial` (QP), `C63_comment_lost` (P), `C63_tag_variable_lost` (P), `C63_tweak_comment_lost` (P), `C63_chord_modifier_fails` (P), `C63_chord_comment_moved` (P)
* C64: `C64_markup_partial` (QP), `C64_markup_list` (QP), `C64_order` (P), `C64_no_token_twice` (QP), `C64_comment_replaces` (P)
* C65: `C65_find_partial` (CQP), `C65_follow_partial` (CQP), `C65_agree` (CQP), `C65_unknown_raises` (CQP), `C65_include_raises` (CQP)
* C66: `C66_distill` (CQP), `C66_order` (CQP), `C66_written_partial` (CQP), `C66_norsk_other_spelling` (CQP), `C66_english_short` (CQP), `C66_english_long_written` (CQP), `C66_catalan_nothing` (CQP)
* C67: `C67_read_partial` (CQP), `C67_scheme` (CQP), `C67_order` (QP), `C67_comment_quoted` (P), `C67_quote_lost` (P), `C67_scheme_comment` (P)
* C68: `C68_exact_partial` (CQP), `C68_injective` (CQP), `C68_float` (CQP), `C68_float_truncated` (CQP), `C68_other_nan` (CQP)
* C69: `C69_value` (CQP), `C69_unique` (CQP), `C69_single_tuple` (CQP), `C69_empty_tuple` (CQP)
* C70: `C70_selection_partial` (CQP), `C70_no_selection` (CQP), `C70_from_cursor_partial` (CQP), `C70_last_chord` (CQP), `C70_one_note` (CQP), `C70_blank` (CQP), `C70_begin` (CQP), `C70_end` (CQP), `C70_past_end` (CQP), `C70_cursor_at_end` (CQP)
* C71: `C71_write` (CQP), `C71_indented` (CQP), `C71_comment` (CQP), `C71_edit_partial` (CQP), `C71_edit_apart` (QP), `C71_edit_comment_hides` (CQP)
* C72: `C72_missing_tail_raises` (QP), `C72_succeeds_partial` (QP), `C72_set` (CQP), `C72_write` (CQP), `C72_indented` (CQP), `C72_exact_partial` (CQP), `C72_twice` (P), `C72_multiline_token` (CQP)
* C73: `C73_before` (CQP), `C73_after` (CQP), `C73_between` (CQP), `C73_write_before_partial` (CQP), `C73_write_after_partial` (CQP), `C73_write_ignores_newline` (P), `C73_write_ignores_before` (CQP)
* C74: `C74_none_left` (P), `C74_others` (QP), `C74_replaced` (QP), `C74_write_raises` (QP), `C74_write_partial` (CQP), `C74_edit_partial` (CQP), `C74_root_stays` (QP), `C74_copy_whole_text` (P)
* C75: `C75_write` (CQP), `C75_injective` (CQP), `C75_plaintext` (QP), `C75_resolver_ignored` (P), `C75_cdata` (CQP), `C75_words` (CQP), `C75_quoted` (CQP)
* C76: `C76_edit_partial` (CQP), `C76_comments_deleted` (CQP), `C76_lone_quote` (P), `C76_read` (QP)
* C77: `C77_nearest` (CQP), `C77_limit` (CQP), `C77_from_other_end` (CQP), `C77_looks_into_other_context` (QP), `C77_two_starts` (QP)
* C78: `C78_index_error` (CQP), `C78_read_written_partial` (CQP), `C78_valid` (CQP), `C78_source_kept_partial` (CQP), `C78_scheme_block_comment` (CQP), `C78_accepted_not_valid` (CQP)
* C79: `C79_newlines` (CQP), `C79_newlines_nontrivial` (CQP), `C79_open_brace` (CQP), `C79_read` (CQP), `C79_tokens` (CQP), `C79_edit` (CQP), `C79_comment_newline` (CQP), `C79_open_bracket` (CQP), `C79_open_option` (CQP), `C79_open_lilypond` (CQP), `C79_begin_taken_for_end` (CQP)
* C80: `C80_means` (CQP), `C80_unique` (CQP), `C80_evaluates` (CQP), `C80_undefined` (CQP), `C80_five_arguments` (CQP), `C80_as_is` (CQP), `C80_with_link` (CQP), `C80_main` (CQP)
* C81: `C81_no_token_twice` (CQP), `C81_read_partial` (CQP), `C81_nothing_lost_partial` (CQP), `C81_order_partial` (CQP), `C81_score_brace_lost_partial` (CQP), `C81_figure_comment` (CQP), `C81_duration_comment_lost` (CQP)
* C82: `C82_nesting` (CQP), `C82_unique` (CQP), `C82_always` (CQP)
* C83: `C83_relative_tag` (CQP), `C83_confused` (CQP), `C83_confuses` (P), `C83_takes_partial` (CQP), `C83_refused` (CQP), `C83_only` (CQP), `C83_accepts` (CQP), `C83_subclass` (QP), `C83_text_partial` (CQP)
* C84: `C84_position` (CQP), `C84_selection` (CQP), `C84_end_of_text` (CQP), `C84_in_chord` (CQP), `C84_outside` (CQP), `C84_none` (CQP), `C84_after_last` (CQP), `C84_part_of_note` (CQP)
* C85: `C85_numbers` (QP), `C85_string_get` (CQP), `C85_string_set` (CQP), `C85_version` (CQP), `C85_include_language` (CQP), `C85_include_raises` (CQP), `C85_document_get` (CQP), `C85_document_none` (CQP), `C85_document_set` (CQP), `C85_document_insert` (CQP), `C85_document_total` (CQP), `C85_first_pitch` (CQP), `C85_attribute_partial` (CQP), `C85_attribute_none` (CQP)
* C86: `C86_name` (P), `C86_refers` (CQP), `C86_with_name` (CQP), `C86_value` (CQP), `C86_wait` (CQP)
* C87: `C87_length_nontrivial_tuplet` (CQP), `C87_length_nontrivial_shift` (CQP), `C87_drum_chord` (CQP), `C87_repeat_once` (CQP), `C87_alternatives` (CQP), `C87_mark` (CQP), `C87_tag` (CQP), `C87_length_partial` (CQP)
* C88: `C88_selection_nontrivial` (CQP), `C88_inserts_outside` (CQP), `C88_selection` (CQP), `C88_readonly` (CQP), `C88_no_changes` (CQP), `C88_document` (CQP), `C88_raises` (CQP)
* C89: `C89_ends` (CQP), `C89_selection` (CQP), `C89_rest_stays_partial` (CQP), `C89_every_tree` (QP), `C89_outside_selection` (CQP), `C89_comment_lost` (CQP)
* C90: `C90_only_pitches` (CQP), `C90_nothing_selected` (CQP), `C90_succeeds` (CQP), `C90_sounds_partial` (CQP), `C90_comment_in_transpose` (CQP), `C90_inside_relative` (CQP)
* C91: `C91_edited` (CQP), `C91_again` (CQP), `C91_sounds_partial` (CQP), `C91_list_itself` (CQP), `C91_language` (CQP), `C91_start_language` (CQP), `C91_chordmode_selected` (CQP), `C91_inside_relative` (CQP), `C91_range_partial` (CQP), `C91_range_nontrivial` (CQP)
* C92: `C92_back` (CQP), `C92_undone` (CQP), `C92_swapped` (CQP), `C92_respelled` (CQP), `C92_other_name` (CQP), `C92_octave_check` (CQP)
* C93: `C93_explicit` (CQP), `C93_implicit` (CQP), `C93_implicit_per_line` (CQP), `C93_starts_inside` (CQP)
* C94: `C94_scale` (CQP), `C94_shift` (CQP), `C94_default_duration` (CQP), `C94_shift_durations` (CQP)
* C95: `C95_copy_node` (QP), `C95_copy_node_with_origin` (QP), `C95_origin_from` (QP), `C95_origin_from_modified` (QP), `C95_tail_unmodified` (QP), `C95_set_head` (P), `C95_copy_text_partial` (QP), `C95_copy_exact` (CQP), `C95_copy_is_new` (CQP), `C95_copy_edits_partial` (QP), `C95_copy_edits_exact` (CQP), `C95_shape` (P), `C95_spacing_lost` (CQP)
* C96: `C96_eval` (CQP), `C96_not_last` (CQP), `C96_lines` (CQP)
* C97: `C97_same_accidental` (CQP), `C97_in_key` (CQP), `C97_respelled_leaves_key` (CQP), `C97_names` (CQP), `C97_document` (CQP)
* C98: `C98_pitch_mode_partial` (CQP), `C98_pitch_list_partial` (CQP), `C98_variable` (CQP), `C98_undefined` (CQP), `C98_pairs` (CQP), `C98_transposed` (CQP)
* C99: `C99_place` (CQP), `C99_only_durations` (CQP), `C99_outside` (CQP), `C99_copy` (CQP)
* C100: `C100_refines` (CQP), `C100_results` (CQP), `C100_values` (CQP), `C100_paste_copy` (CQP)
* C101: `C101_orderly` (CQP), `C101_sequence` (CQP), `C101_explicit_twice` (CQP), `C101_implicit_twice` (CQP), `C101_explicit_implicit` (CQP)
* C102: `C102_walk` (CQP), `C102_walk_entered` (CQP), `C102_descendants` (CQP), `C102_children` (CQP), `C102_operators` (CQP), `C102_operators_entered` (CQP), `C102_somewhere` (CQP), `C102_own_ancestor` (P)
* C103: `C103_lines` (CQP), `C103_styles` (CQP), `C103_readable` (CQP)
* C104: `C104_length_nontrivial` (CQP), `C104_include_duration` (CQP), `C104_error_nontrivial` (CQP), `C104_include_duration_nontrivial` (CQP), `C104_variables_partial` (CQP), `C104_error` (CQP), `C104_as_text_partial` (CQP), `C104_length_partial` (CQP)
* C105: `C105_back_partial` (CQP), `C105_back_nontrivial` (CQP), `C105_chord` (CQP)
* C106: `C106_transpose` (CQP), `C106_rel2abs` (CQP), `C106_abs2rel` (CQP), `C106_simultaneous` (CQP)
* C107: `C107_twice` (CQP), `C107_intervals` (CQP), `C107_chain` (CQP), `C107_respelled` (CQP), `C107_octave_check` (CQP)
* C108: `C108_either_order` (CQP), `C108_octave_check` (CQP), `C108_transpose_in_relative` (CQP), `C108_relative_in_fixed` (CQP), `C108_selection` (CQP)
* C109: `C109_relative_and_back_partial` (CQP), `C109_octave_check` (CQP)
* C110: `C110_either_order` (CQP), `C110_transposed` (CQP), `C110_start_pitch` (CQP), `C110_chord` (CQP)
* C111: `C111_edit` (CQP), `C111_results` (CQP), `C111_transposed` (CQP)
* C112: `C112_parts` (CQP), `C112_order` (CQP), `C112_again` (CQP), `C112_implicit_parts` (CQP), `C112_transform` (CQP)
* C113: `C113_nothing` (CQP), `C113_back` (CQP), `C113_twice` (CQP), `C113_order` (CQP), `C113_cut_off` (CQP)
