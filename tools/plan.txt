* **C01 Roman numerals round-trip** — `int2roman`/`roman2int` on `List Char`; greedy divmod table as a recursion over the table; induction on the thousands plus a finite check of the digits 0..999 lifted by a lemma.
* **C02 Letter numbering is a bijection** — `int2letter`/`letter2int` over an arbitrary duplicate-free alphabet; strong induction on n, reverse induction on the word.
* **C03 English number names denote the number** — `int2text` as a list of words; a separate denotational reading of number words as spec; case split on the recursion.
* **C04 Durations: log and dots round-trip** — Exact rational arithmetic, `frexp` as the unique mantissa/exponent decomposition of a rational (float rounding is not modelled).
* **C05 log_dotcount truncates to the longest writable length that is not longer** — Same model; order argument on m in [1/2,1).
* **C06 Duration strings round-trip** — Text model of `to_string`/`from_string`, decimal digits of powers of two.
* **C07 is_writable is exact** — Same model as C04.
* **C08 Shifting durations composes and inverts** — Same model as C04.
* **C09 Duration transforms combine** — `Transform` record of two integers and a rational.
* **C10 Properties addition is right-biased union** — Ordered association list as the Python `__dict__`; spec is a partial function; induction over operation histories.
* **C11 Relative and absolute octaves are inverse** — Integer arithmetic over an arbitrary positive scale length.
* **C12 A relative pitch without octave marks is the nearest one** — omega on floor division.
* **C13 MIDI numbers round-trip** — from_midi/to_midi on rationals; finite check of the 12 residues lifted to all integers through divmod.
* **C14 Pitch comparison is a total order consistent with equality** — Lexicographic order on (Int, Int, Rat).
* **C15 Pitch names round-trip in every language** — Name tables as arbitrary lists name -> (note, alter, octave); `_suitable` with arbitrary preferences.
* **C16 Writing a pitch to a node and reading it back is lossless** — Same tables; node = (head, octave).
* **C17 Octave strings round-trip** — Strings of apostrophes and commas; induction.
* **C18 determine_language is exact** — Language tables as arbitrary data.
* **C19 Key signature accidentals** — Rational arithmetic over an arbitrary scale; induction over the |sf| steps.
* **C20 KeySignature.pitch names the right key** — The `steps` table as an overwritten 12-array; the claim fails for extreme alterations (concrete witnesses), a partial theorem covers the rest.
* **C21 Transposing moves every pitch by the same interval** — Transposer model over an arbitrary scale of seven notes (height conserved by every loop step).
* **C22 Transposed pitches are spelled with at most a double accidental** — Termination measure of both while loops; fuel-free well-founded recursion.
* **C23 Adding and subtracting transposers** — Sum proved; the subtraction law is false of the code (sign error), negation proved with a witness plus the partial law.
* **C24 Transposing relative music commutes with reading it** — Music as a sequence of items (note, chord, octave check); induction over the sequence with a joint invariant on the two last pitches.
* **C25 rel2abs and abs2rel are inverse and preserve the music** — Same music model.
* **C26 descendants() is document order** — Rose trees with explicit-stack traversal as in the generator; refinement to recursive preorder.
* **C27 Skipping children by sending False** — Generator driven by an arbitrary list/oracle of sent values.
* **C28 forward() and backward() walk the rest of the document** — Positions as trails in a rose tree; zipper-like model of `ancestors_with_index`.
* **C29 Common ancestors and trails** — Trails as lists; longest common prefix.
* **C30 Parent links stay consistent** — Heap model: node id -> (parent, children); invariant by induction over operations.
* **C31 equals is structural equality and copies are equal** — Trees with heads and types; structural induction.
* **C32 depth and height** — Explicit-stack loop of `height`; refinement to the recursive definition.
* **C33 Range iteration covers exactly the nodes between start and end** — Stack of levels as in the code; refinement to the filter of the preorder by trail order.
* **C34 Range membership agrees with iteration** — Trail comparison functions as in the code; `in` disagrees with the documentation for partial nodes (negation proved), partial theorem for the rest.
* **C35 extract_tree copies exactly the range** — Loop of extract_tree over the level stack; refinement to a recursive cut.
* **C36 Whitespace collapsing** — Strings as lists of characters, combine_text as a fold.
* **C37 write() outputs every text once, in order** — Element trees with spacing attributes; points() as in the code.
* **C38 Editing a document touches only what changed** — Points with positions; the loop of edits(); replay of the edits on the document text.
* **C39 build_tree keeps all nodes in order** — build_tree's stack machine over arbitrary streams and signature tables.
* **C40 Ordered insertion of children** — List insertion as in the code.
* **C41 Spacing attributes behave like plain attributes with defaults** — Sparse dictionary model with bit of 'absent' values; induction over histories.
* **C42 Indented output keeps the text** — Indenter state machine.
* **C43 Finding nodes by text position** — Trees with positions; binary search modelled as loop with lo/hi.
* **C44 Strings escape and unescape losslessly** — Escape/unescape on List Char; regex replaced by an equivalent scanner (stated).
* **C45 Mapped heads are one-to-one** — Tables as association lists; generic theorem plus the concrete tables.
* **C46 The implicit duration does not depend on the query order** — Closure cache as a state; induction over query histories.
* **C47 Making rhythm explicit or implicit preserves the lengths** — Flat sequence of durables as the code visits them.
* **C48 Copy and paste of rhythm** — Same.
* **C49 Removing durations never changes how the text is read** — Same.
* **C50 Duration and scaling properties of a node** — Node with optional Duration child with optional scaling child.
* **C51 Octave, accidental and octave-check properties of a pitchable** — Node with optional child fields in an ordered list.
* **C52 Music length** — Music trees with times as rationals.
* **C53 Include resolution cannot loop** — Include graph as arbitrary function; parent chain of scopes; finiteness by pigeonhole.
* **C54 Assigned variables** — List of children with assignments; refinement to a map.
* **C55 Grouping of assignments and lyrics keeps every node** — Streams as lists; iterator sharing made explicit.
* **C56 Transposing fixed music and key signatures** — Same music model as C24.
* **C57 Copying rhythm** — Same model as C47.
* **C58 Transforming rhythm** — Same model as C47 with the Transform of C09.
* **C59 Variables through includes** — Documents as lists of assignments and includes, an include graph as a function; the search as the code does it, against the list of all assignments in the text with includes expanded.
* **C60 Changing a tree through a Range** — The innermost level of the iteration with its indices and trails; integer arithmetic.
* **C61 Query operators on nodes** — Filters over the generators of C26 to C29.
* **C62 Indents of lines** — The state machine of C42 against a reference semantics of layout; simulation.
* **C63 Reading music** — MusicBuilder as a state machine over items; a grammar of correct music with printing to items and to nodes; reading inverts printing, by induction over phrases with an invariant on the pending state; counting of tokens for all input.
* **C64 Reading markup** — read_markup_arguments over a shared list of items; mutual induction over markup expressions.
* **C65 The language of pitch names at a place** — Both methods over the generators of C26 and C61; the last node that selects a language by document order; induction over the nodes.
* **C66 Distilling preferences** — The loop over names, a marker per preference; induction; composed with C15 for writing.
* **C67 Reading Scheme** — `common` over items with pending quotes; an inductive type of Scheme expressions with printing to items and to nodes; reading inverts printing, by induction; sublist of tokens for all input.
* **C68 Numbers in Scheme** — Digits by repeated division; a reader of numbers by Horner's scheme; induction on the digits.
* **C69 Python values as Scheme** — Elements with spacing of C38, written to text; an independent recursive-descent reader of Scheme; induction over values, for every text that may follow.
* **C70 Editing a selection** — `edit_cursor` composed of the searches of C43 and the ranges of C33; the places of the two nodes by the order of the tokens.
* **C71 Whitespace that elements ask for** — The texts with their places and wishes, from the tree; the points of C38 in chunks between the texts; importance is monotone under collapsing.
* **C72 Retaining the line breaks of the source** — The scan for separators with an invariant (the current separator is the first from the furthest position on); a relation between the texts before and after, in document order; composed with C71 for what is written.
* **C73 Newlines, blank lines, lines and columns in the document are written out** — Model: the elements of base.py that only carry spacing, on top of the trees of C34/C41. write_indented() as a stream of wishes and texts (C71 lemmas); a wish anywhere in the stream is dominated by the gap it falls in. write() through the same render of fragments: the points of a subtree are a segment of the points of the tree, with only the last `after` raised.
* **C74 Regions that are not transformed are kept** — Model: trees of elements with a flag for Unknown, pos and end, replace_unknown. write() through C37; edit() through C38: the edits that are added replace a part of the text by itself, which in a sorted list of edits changes nothing.
* **C75 Html that is built with the element constructor is written properly** — the elements of dom/htm.py with their texts and spacing over the points model of C08/C73, the constructor and to_plaintext; Html as a small inductive type with its own serialisation; a cancellation proof for the serialisation (prefix code for escaped characters, names, attributes, nested contents) gives injectivity.
* **C76 Reading Html shows the document and loses nothing** — a grammar of documents with its parce tree (tokens and contexts) and the expected nodes; readTag, readAttrs and readString branch by branch; induction over the pieces of a document with the rest of the items; a covering relation between the tokens and the origins, and the theorems of C38 for edit().
* **C77 The other end of a spanner** — the search is modelled on the generators of C28 with the predicate of the code; that the first hit is the nearest candidate follows from the order of C28. The statement about the other end compares the two searches.
* **C78 Text elements read back what they write** — check_head, write_head and read_head of the text elements by kind; the syntax of one element as a separate predicate on lists of tokens; case analysis, with the round trips of decimal numbers and octave marks.
* **C79 Reading LaTeX shows the document and loses nothing** — a grammar of documents with its parce tree (tokens and contexts) and the expected nodes; the transform function by function over items; induction over the pieces with invariants on what a list of items starts and ends with (options, braces, names); the tokens of the tree; the theorems of C38 for edit(), for any tree that is made of all tokens (`Edits/Whole.lean`).
* **C80 Constructed markup means what was asked** — the functions one by one, and expressions made of them; a separate reader of markup text (words, strings, Scheme data of C69, lists, commands with a given number of arguments); the text of a tree from C37 (a space between each two), then induction over the expression.
* **C81 Reading a LilyPond text shows it and loses nothing** — a tree of contexts and tokens as input; every transform method; a grammar of correct texts with the elements they stand for, by mutual induction; tokens counted through C63, C39 and C55, whose models are used for music, arguments, assignments and lyrics.
* **C82 Every command gets its arguments** — expressions as an inductive type with the conditions for a proper expression; uniqueness by mutual induction over two readings of the same nodes; existence from the loop, with an expression for every entry of the stack; and a direct proof that the loop makes the expressions.
* **C83 The commands of LilyPond get the arguments that LilyPond documents** — the class hierarchy and all signatures as tables; the documented forms as a separate table of kinds; the kernel compares the tables, for every class, form and argument; then texts of commands by induction, with C82.
* **C84 The musical time at the cursor** — a tree with origins and kinds, seen as the trees of C43 and of C52; the node that is found is identified by the order of tokens, then C52.
* **C85 Version, language and file name of a document** — the attributes over lists of children; the first command from C61; document order of places; numbers in a text against a grammar of texts with numerals.
* **C86 References to variables** — head and children of a reference against the name, with C54 and C59.
* **C87 The length of LilyPond music** — from a tree with classes and values to the kinds of C52, durations from all nodes before; a relation `Plays` after LilyPond's manual, with the current duration before and after; induction over it.
* **C88 The text after editing a selection** — the model of C38 for the ancestor and positions of C70; the points split in those before, in and after the selection; the loop over each of the three parts.
* **C89 rel2abs changes only what it has to** — Nodes in a store, generators as loops with an index into lists that are looked up at every step; every state of the store is described by the sets of \relative nodes, notes and octave checks done so far; induction over the tree with a count of the \relative nodes left.
* **C90 Transposing a document changes only its pitches** — the tree of C89 with one function per generator and the loop that waits for the notes as a value; a relation between trees for the frame; a translation of trees to the music of C24, with which the walk commutes.
* **C91 Converting a document to relative music** — the range as two trails that get shorter on the way down; an inductive relation for what becomes of a node at a place, with document order of C02 for what is in the range; a simulation by the music of C25 for what is heard.
* **C92 Transposing a document there and back** — both walks side by side: the second has the pitches of the first the other way round, all off by the same octaves; induction over the tree of C90.
* **C93 Explicit and implicit durations take the same time** — two documents side by side with the current duration of both; a relation on the music that `Time` reads, which all its functions respect; an invariant that ties the state of each edit to the current duration, by induction over the tree.
* **C94 Transforming all durations scales the time** — the same relation with other durations: the edited one has the scaled length under every transform that surrounds it; sums and maxima of scaled lengths are scaled.
* **C95 Copies of elements** — an invariant of all objects that can be made, which says what slots are set per class; the points of a tree change as those of its nodes do, by induction.
* **C96 Dumping elements as Python code** — the loop with a stack is a recursive function; a small reader of Python calls, by induction over the tree, with whatever text follows.
* **C97 Transposing keeps notes in their key** — how much a pitch differs from the signature depends only on its distance to the tonic in staff positions and in tones (from C19), which transposing keeps (C21); every loop of Transpose writes the transposed name (C16, and the transposer commutes with octaves), by induction over the music of C24.
* **C98 The key signature of a \key statement** — the loop over the children; comments are passed over; then C97 for transposed statements.
* **C99 Rhythm edits change nothing but durations** — every edit is the same walk with another step; a step only adds Durations (an invariant of its state), and each change keeps the other children.
* **C100 Rhythm edits give the nodes the right durations** — a simulation: one step on a node and on its label, the walk by induction, and numbers among all nodes against numbers among the nodes that can have a duration.
* **C101 Rhythm edits one after another** — the conditions of C100 and the place of the Duration are an invariant of the walk, per node and per change; the numbers of nodes depend only on what is left without the durations (C99).
* **C102 Walking with a Range** — the levels of a stack that operations can leave form a chain; a walk with `upto` on the stack is the plain walk on the levels down to that node, of which the work list is known (C33).
* **C103 dump() shows the tree** — the loop that goes up gives the columns from the right, by induction on the place; a line gives the depth back (columns of one width, without `<`), and the depths in document order determine the tree.
* **C104 music length with variables in other files** — searching from the place of the assignment that is found yields what the first search had yet to yield (induction on the depth of includes and the place), so following variables through files is following them in the list of the assignments in the text; the notes of a value have the same durations if its first note has one.
* **C105 to relative and back** — induction on the tree: the note that was made relative to the last pitch reads as a pitch that, made absolute to the same last pitch, is the first (C11, C16), and the name is kept both ways; the start pitch reads as the pitch that was taken. The converted document meets what `edit_document` (C89) asks for.
* **C106 pitch edits keep the time** — a relation on documents (`Like`) that allows other pitches, and `\relative` and `\octaveCheck` in one of the two; by induction on it the trees that `Time` computes with are related (`R`: the same length, whatever surrounds them), and so are the places in them (`Place`). The edits are shown to give related documents by C90, C89 and C91.
* **C107 transposing twice** — the three walks side by side: the second begins with what the first writes, the third has the pitches of the first and writes those of the second, each off by some octaves (`TriLast`). Writing a pitch over another one is writing it over the first (`write_twice`), because with names in one octave a name does not depend on the octave.
* **C108 transposing and converting** — the walk that transposes and the two that convert side by side: the pitches that the first remembers are those of the second and the third, lowered by the same octaves (`Conv`, `Rel`). Writing a pitch over the converted note and over the transposed one gives the same name (`write_after`). `edit_document` (C25) then tells what is in memory.
* **C109 relative, transposed, and back** — C105 and C108 one after another: the converted document is one that C108 is about (`editL_kind`), and transposing does not depend on the identities of nodes (`visit_erase`).
* **C110 transposing and making relative** — the walk that transposes absolute music, the one that makes it relative, and the two that come second, side by side (`Joint`): the last pitch of the relative walk over the transposed music is the transposed last pitch. Writing a pitch over the relative note and over the transposed one gives the same name (`write_after`, C108).
* **C111 rhythm edits and pitches** — one map (`bare`) takes the pitches away; every step of an edit, every change of children and the search for the previous duration commute with it, so the walk does too; a transposed document is the same under this map (C90).
* **C112 part by part** — the walk of an edit without a state is a map over the nodes (`each`); two such maps are one, so the claims are about one node; C101 brings them to documents.
* **C113 transforming twice** — C09 for one duration; a walk that ends without an exception had none at any node, so the two walks and the walk with the sum go together; C100 and C101 bring it to documents.
