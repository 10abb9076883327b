{"id": "C01", "title": "Roman numerals round-trip", "statement": "For every integer n >= 1, roman2int(int2roman(n)) == n, and so two different integers never get the same numeral; for n < 1 int2roman raises ValueError and returns nothing.", "quantifier": "all integers n", "why_tests_cant": "The test runs 1..9998 only; the claim is about every integer, and numerals above 3999 (runs of M) have no length bound.", "anchors": ["quickly/numbering.py: int2roman, roman2int"]}
{"id": "C02", "title": "Letter numbering is a bijection", "statement": "For any alphabet without repeated characters: letter2int(int2letter(n)) == n for every n >= 0, int2letter(letter2int(s)) == s for every string s over the alphabet, int2letter(n) is empty exactly when n <= 0, and letter2int raises ValueError exactly when s has a character outside the alphabet.", "quantifier": "all integers n, all alphabets without repetition, all strings", "why_tests_cant": "Infinitely many numbers, words and alphabets; the test samples one alphabet and 9999 values.", "anchors": ["quickly/numbering.py: int2letter, letter2int"]}
{"id": "C03", "title": "English number names denote the number", "statement": "For every 0 <= n <= 999999999, int2text(n) is the concatenation of English number words whose reading (units, tens, hundred, thousand, million) is n, so distinct numbers get distinct names.", "quantifier": "all integers 0..999999999", "why_tests_cant": "A billion inputs; tests cover 9999 of them.", "anchors": ["quickly/numbering.py: int2text"]}
{"id": "C04", "title": "Durations: log and dots round-trip", "statement": "For every log >= -3 - dots and every dot count up to 52 (what a float can hold), log_dotcount(duration(log, dots)) == (log, dots); different (log, dots) pairs denote different lengths; outside that domain duration raises ValueError, and from 53 dots on log_dotcount gives the next longer undotted length.", "quantifier": "all integers log with log + dots + 3 >= 0 and all dot counts", "why_tests_cant": "Unbounded log and dot count.", "anchors": ["quickly/duration.py: duration, log_dotcount"]}
{"id": "C05", "title": "log_dotcount truncates to the longest writable length that is not longer", "statement": "For every positive length v that a float can hold, duration(*log_dotcount(v)) <= v, and no length written as note length plus dots lies strictly between that value and v.", "quantifier": "all positive rational lengths that are exact in a float", "why_tests_cant": "A quantification over all rationals and all competing (log, dots) pairs.", "anchors": ["quickly/duration.py: log_dotcount, duration, to_string"]}
{"id": "C06", "title": "Duration strings round-trip", "statement": "For every writable length (maxima and shorter, up to 52 dots) from_string(to_string(v)) == v; longer lengths make to_string raise IndexError.", "quantifier": "all log >= -3, all dot counts up to 52, all positive floats", "why_tests_cant": "Unbounded set of texts.", "anchors": ["quickly/duration.py: to_string, from_string, NAMED_DURATIONS"]}
{"id": "C07", "title": "is_writable is exact", "statement": "For every positive v that a float can hold is_writable(v) is True exactly when v equals duration(log, dots) for some log in -3..10 and some dot count (the documented range 1/1024 <= v < 16).", "quantifier": "all positive rational lengths", "why_tests_cant": "An equivalence over all rationals.", "anchors": ["quickly/duration.py: is_writable"]}
{"id": "C08", "title": "Shifting durations composes and inverts", "statement": "shift_duration(v, l, d) multiplies a dotless length by 2**-l; shifts of the log compose additively and are undone by the opposite shift; adding d >= 0 dots and removing them again restores the length; the dot count never drops below zero.", "quantifier": "all writable lengths, all shifts for which the code does not raise", "why_tests_cant": "Laws over all lengths and all pairs of shifts.", "anchors": ["quickly/duration.py: shift_duration"]}
{"id": "C09", "title": "Duration transforms combine", "statement": "Transform addition is associative and commutative with Transform() as identity; a Transform is falsy exactly when it changes no length; applying the sum of two transforms equals applying one after the other, unless removing more dots than there are intervenes.", "quantifier": "all transforms, all writable durations and scalings", "why_tests_cant": "Algebraic laws over unbounded parameters.", "anchors": ["quickly/duration.py: Transform"]}
{"id": "C10", "title": "Properties addition is right-biased union", "statement": "(p + q).k is q.k when 'k' in q, else p.k; absent keys read as None but are not 'in'; None set explicitly overrides; deletion removes exactly that key and never raises; addition is associative with the empty Properties as identity, and neither operand changes.", "quantifier": "all Properties objects and all histories of set, delete and add", "why_tests_cant": "Every history of operations.", "anchors": ["quickly/datatypes.py: Properties"]}
{"id": "C11", "title": "Relative and absolute octaves are inverse", "statement": "For every pitch p, previous pitch q and default octave, make_relative after make_absolute (and the reverse) with the same arguments gives p back, for any scale length.", "quantifier": "all pitches, all previous pitches, all default octaves, all scale sizes", "why_tests_cant": "Unbounded octaves.", "anchors": ["quickly/pitch.py: Pitch.make_absolute, Pitch.make_relative"]}
{"id": "C12", "title": "A relative pitch without octave marks is the nearest one", "statement": "A note written without octave marks, made absolute against a previous pitch, lies at most three scale steps above or below it, whatever the alterations; it is the only octave of that note that does.", "quantifier": "all notes 0..6, all previous pitches", "why_tests_cant": "Quantifies over all octaves and the uniqueness over all candidates.", "anchors": ["quickly/pitch.py: Pitch.make_absolute"]}
{"id": "C13", "title": "MIDI numbers round-trip", "statement": "For every integer key and every set of flats that yields a valid scale step, Pitch.from_midi(key).to_midi() == key; the default spelling uses only naturals, sharps and the two default flats.", "quantifier": "all integer MIDI keys", "why_tests_cant": "All integers, including negative keys.", "anchors": ["quickly/pitch.py: Pitch.from_midi, Pitch.to_midi"]}
{"id": "C14", "title": "Pitch comparison is a total order consistent with equality", "statement": "For pitches with rational alterations exactly one of p < q, p == q, q < p holds, < is transitive, <= and >= agree with it, and a copy compares equal.", "quantifier": "all pairs and triples of pitches", "why_tests_cant": "Order laws range over all triples.", "anchors": ["quickly/pitch.py: Pitch.__lt__, __eq__, __gt__, __le__, __ge__, copy"]}
{"id": "C15", "title": "Pitch names round-trip in every language", "statement": "In any language table and with any preferences, if the language has a name for (note, alter) then name_octave(p) returns a name of the current language and an octave count that reads back as exactly p; otherwise KeyError is raised. The name's own octave is the nearest available one.", "quantifier": "all language tables, preference settings and pitches", "why_tests_cant": "Tables, preferences and octaves are unbounded.", "anchors": ["quickly/pitch.py: PitchProcessor.name_octave, pitch, _suitable, pitch_names_reversed"]}
{"id": "C16", "title": "Writing a pitch to a node and reading it back is lossless", "statement": "After write_node(n, p) with any preferences read_node(n) == p; writing back an unchanged pitch leaves the node's name and octave untouched; process(n) with no modification leaves the node as it was; with write=False the node never changes.", "quantifier": "all language tables, nodes whose name the language knows, pitches the language can name", "why_tests_cant": "All tables, nodes and pitches.", "anchors": ["quickly/pitch.py: PitchProcessor.read_node, write_node, process"]}
{"id": "C17", "title": "Octave strings round-trip", "statement": "octave_from_string(octave_to_string(n)) == n for every integer n; to_string uses only apostrophes or only commas, the minimal number.", "quantifier": "all integers, all strings", "why_tests_cant": "All integers and strings.", "anchors": ["quickly/pitch.py: octave_to_string, octave_from_string"]}
{"id": "C18", "title": "determine_language is exact", "statement": "determine_language(names) yields exactly the languages (one per distinct table) that know all names other than r, R, s, q, each once, in the documented order.", "quantifier": "all tables and all collections of names", "why_tests_cant": "All collections and tables.", "anchors": ["quickly/pitch.py: determine_language"]}
{"id": "C19", "title": "Key signature accidentals", "statement": "tonic(sf) gives the tonic whose major key has accidentals summing to sf semitones, tonic(sf+1) is a fifth above tonic(sf), a key in any of the named modes has as many sharps or flats as the tonic is fifths away from the white key on which the mode has none (D dorian, E phrygian, A minor), and accidentals(note, alter, mode) spell on every degree the pitches of the mode transposed to that tonic, for any scale and any mode.", "quantifier": "all integers sf, all notes, alterations and modes", "why_tests_cant": "Unbounded sf and alterations.", "anchors": ["quickly/key.py: alterations, accidentals, tonic"]}
{"id": "C20", "title": "KeySignature.pitch names the right key", "statement": "For every key signature and every integer MIDI key the returned pitch sounds as that MIDI key, and keys on the scale of the signature are spelled with the signature's own accidentals.", "quantifier": "all MIDI keys, all tonics, modes and flats", "why_tests_cant": "All integers and all modes.", "anchors": ["quickly/key.py: KeySignature.pitch, _midi_reader, chromatic_scale"]}
{"id": "C21", "title": "Transposing moves every pitch by the same interval", "statement": "Transposer(a, b).transpose(p) changes the sounding height of p by exactly height(b) - height(a), for every p; transposing a itself yields the height of b; when no respelling is needed the number of staff positions moved is the same for every pitch.", "quantifier": "all pitches a, b, p with rational alterations", "why_tests_cant": "All pitches and intervals.", "anchors": ["quickly/transpose.py: Transposer"]}
{"id": "C22", "title": "Transposed pitches are spelled with at most a double accidental", "statement": "Transposer.transpose terminates on every input and leaves note in 0..6 and alter in -1..1; it respells only when the plain spelling falls outside -1..1.", "quantifier": "all pitches and transposers", "why_tests_cant": "Termination and a bound over all inputs.", "anchors": ["quickly/transpose.py: Transposer.transpose"]}
{"id": "C23", "title": "Adding and subtracting transposers", "statement": "(s + t) transposes by the sum of the intervals of s and t, and (t - t') reverts t': the interval of (s + t) - t equals that of s.", "quantifier": "all transposers and pitches", "why_tests_cant": "Laws over all transposers.", "anchors": ["quickly/transpose.py: Transposer.__add__, __sub__"]}
{"id": "C24", "title": "Transposing relative music commutes with reading it", "statement": "For every sequence of notes, chords and octave checks inside \\relative, transposing the relative notation and then reading the absolute pitches equals reading the absolute pitches first and transposing each one.", "quantifier": "all music expressions, start pitches and transposers", "why_tests_cant": "All music sequences; each note depends on all previous ones.", "anchors": ["quickly/transpose.py: Transpose.edit_range"]}
{"id": "C25", "title": "rel2abs and abs2rel are inverse and preserve the music", "statement": "rel2abs leaves the sounding pitch of every note as \\relative defines it; abs2rel followed by rel2abs gives back the same pitches, for every choice of start pitch and first-pitch mode.", "quantifier": "all sequences of notes and chords, all documents with \\relative in any place", "why_tests_cant": "All sequences; every step depends on the previous pitch.", "anchors": ["quickly/relative.py: Rel2abs, Abs2rel"]}
{"id": "C26", "title": "descendants() is document order", "statement": "n.descendants() yields every descendant exactly once in document order (parents before children, siblings left to right); with reverse=True siblings are taken right to left; n.trail() order is document order.", "quantifier": "all trees", "why_tests_cant": "All tree shapes and sizes; the implementation is an explicit-stack generator.", "anchors": ["quickly/node.py: Node.descendants, Node.trail, Common.__floordiv__"]}
{"id": "C27", "title": "Skipping children by sending False", "statement": "instances_of/filter yields exactly the topmost matching descendants in document order: every match has no matching ancestor below the start node and no topmost match is missed; sending False after any node skips exactly its descendants.", "quantifier": "all trees and all predicates (all histories of sent values)", "why_tests_cant": "All trees and all interaction histories with the generator.", "anchors": ["quickly/node.py: Common.filter_descendants, filter, instances_of, Node.descendants"]}
{"id": "C28", "title": "forward() and backward() walk the rest of the document", "statement": "forward(upto) yields exactly the nodes after the node and its descendants, inside upto, in document order; backward(upto) exactly the nodes before it that are not its ancestors; together with the node, its ancestors and its descendants they partition the tree.", "quantifier": "all trees, all nodes, all ancestors upto", "why_tests_cant": "All trees.", "anchors": ["quickly/node.py: Node.forward, Node.backward, right_siblings, left_siblings"]}
{"id": "C29", "title": "Common ancestors and trails", "statement": "a.common_ancestor(b) is the deepest node that is an ancestor-or-self of both, the same for b.common_ancestor(a); common_ancestor_with_trail returns trails that lead from it to each node; it is None exactly for nodes of different trees.", "quantifier": "all trees and pairs of nodes", "why_tests_cant": "All trees.", "anchors": ["quickly/node.py: Node.common_ancestor, common_ancestor_with_trail, trail"]}
{"id": "C30", "title": "Parent links stay consistent", "statement": "After any history of append, extend, insert, item and slice assignment, take and replace_with on fresh nodes, every child's parent is the node that lists it.", "quantifier": "all histories of tree mutations", "why_tests_cant": "All histories.", "anchors": ["quickly/node.py: Node.append, extend, insert, replace_with, take, __setitem__, __init__"]}
{"id": "C31", "title": "equals is structural equality and copies are equal", "statement": "equals is an equivalence relation, a copy equals the original, and equal trees have the same write() output when spacing is the default.", "quantifier": "all trees", "why_tests_cant": "All trees.", "anchors": ["quickly/node.py: Node.equals, copy", "quickly/dom/element.py: TextElement.body_equals, copy"]}
{"id": "C32", "title": "depth and height", "statement": "height() is the largest distance to a descendant and depth() the number of ancestors, for trees of any shape.", "quantifier": "all trees", "why_tests_cant": "All tree shapes; explicit-stack loop.", "anchors": ["quickly/node.py: Node.height, Node.depth"]}
{"id": "C33", "title": "Range iteration covers exactly the nodes between start and end", "statement": "Range.nodes() yields, in document order, exactly the nodes from the start node to the end node inclusive; from_nodes builds the range whose first and last nodes are the given ones.", "quantifier": "all trees and all pairs of nodes", "why_tests_cant": "All trees and trails.", "anchors": ["quickly/node.py: Range.nodes, from_nodes, goto, forward"]}
{"id": "C34", "title": "Range membership agrees with iteration", "statement": "'node in range' and in_range() are true exactly for nodes whose position is between the range's start and end (and, per the documentation, whose children are too).", "quantifier": "all trees, ranges and nodes", "why_tests_cant": "All trees and trails.", "anchors": ["quickly/node.py: Range.__contains__, in_range, _trail_intersects"]}
{"id": "C35", "title": "extract_tree copies exactly the range", "statement": "Range.extract_tree() is a copy of the ancestor that contains copies of exactly the nodes that intersect the range, in the same structure.", "quantifier": "all trees and ranges", "why_tests_cant": "All trees.", "anchors": ["quickly/node.py: Range.extract_tree"]}
{"id": "C36", "title": "Whitespace collapsing", "statement": "collapse_whitespace returns one of its arguments with the most newlines and, among those, the most spaces; combine_text never loses or reorders text and puts between two texts exactly the most important of all whitespace wishes between them; it can be applied piecewise.", "quantifier": "all sequences of fragments", "why_tests_cant": "All sequences.", "anchors": ["quickly/dom/util.py: whitespace_key, collapse_whitespace, combine_text"]}
{"id": "C37", "title": "write() outputs every text once, in order", "statement": "With whitespace removed, write() is the concatenation of head, children, tail of every element in document order; between two adjacent texts stands one of the whitespace wishes of the elements meeting there, at least as important as the parent's space_between.", "quantifier": "all element trees", "why_tests_cant": "All trees and spacing attributes.", "anchors": ["quickly/dom/element.py: Element.points, write, head_point, tail_point"]}
{"id": "C38", "title": "Editing a document touches only what changed", "statement": "The edits of a tree are sorted and do not overlap; applying them yields the texts of all points in tree order separated by whitespace; the text of unmodified elements is not rewritten and all text of removed elements is deleted.", "quantifier": "all documents (token streams) and all modifications of the element tree", "why_tests_cant": "All documents and all edits.", "anchors": ["quickly/dom/element.py: Element.edits, Element.edit"]}
{"id": "C39", "title": "build_tree keeps all nodes in order", "statement": "build_tree consumes every node once: the document-order listing of its output equals that of its input stream; every argument was attached because it (apart from ignored types) continued one of the parent's signatures.", "quantifier": "all node streams and signature tables", "why_tests_cant": "All streams and signatures; stack algorithm.", "anchors": ["quickly/dom/element.py: build_tree"]}
{"id": "C40", "title": "Ordered insertion of children", "statement": "Element.add inserts the node without disturbing the order of existing children; if the existing children respect the child order, they do afterwards.", "quantifier": "all elements, child orders and histories of add", "why_tests_cant": "All histories.", "anchors": ["quickly/dom/element.py: Element.add, child_order", "quickly/dom/lily.py: child_order implementations"]}
{"id": "C41", "title": "Spacing attributes behave like plain attributes with defaults", "statement": "After any history of sets and deletes of the five spacing attributes, reading one gives the last value set since its last delete, else the class default; attributes do not influence one another.", "quantifier": "all histories of set and delete", "why_tests_cant": "All histories of a sparse dictionary encoding.", "anchors": ["quickly/dom/element.py: _SpaceProperty"]}
{"id": "C42", "title": "Indented output keeps the text", "statement": "Indenter.write outputs all texts of the tree in order; apart from whitespace it equals write(); every line's indent is a number of spaces and the text ends with a newline.", "quantifier": "all trees, indent widths and alignment settings", "why_tests_cant": "All trees.", "anchors": ["quickly/dom/indent.py: Indenter"]}
{"id": "C43", "title": "Finding nodes by text position", "statement": "find_child/find_descendant return the node touching the position (the right one of two), find_descendant_right the first descendant that starts at or after the position and find_descendant_left the last one that ends at or before it, when the nodes' positions are in document order.", "quantifier": "all trees with ordered positions, all positions", "why_tests_cant": "All trees and positions.", "anchors": ["quickly/dom/element.py: find_child, find_descendant(s), find_descendant_right, find_descendant_left, pos, end"]}
{"id": "C44", "title": "Strings escape and unescape losslessly", "statement": "Reading the written form of a string value gives the value back, for every string, and the written form contains no unescaped quote inside.", "quantifier": "all strings", "why_tests_cant": "All strings.", "anchors": ["quickly/dom/base.py: String"]}
{"id": "C45", "title": "Mapped heads are one-to-one", "statement": "For every mapping element (direction, style, toggle...) write_head and read_head are inverse: reading the written text gives the same head, and other heads are rejected at construction.", "quantifier": "all mapping tables with unique values, all head values", "why_tests_cant": "All tables; also the concrete ones are large.", "anchors": ["quickly/dom/element.py: MappingElement, ToggleElement, head_mapping", "quickly/dom/lily.py: mapping tables"]}
{"id": "C46", "title": "The implicit duration does not depend on the query order", "statement": "duration_getter() returns for every note the same duration as previous_duration() would, in whatever order nodes are queried.", "quantifier": "all music and all query histories", "why_tests_cant": "All histories of a caching closure.", "anchors": ["quickly/dom/lily.py: duration_getter, previous_duration"]}
{"id": "C47", "title": "Making rhythm explicit or implicit preserves the lengths", "statement": "explicit() and implicit() do not change the duration of any note, rest or chord (for ranges that do not start inside a chord); after explicit() every durable has a duration; implicit() removes only repeated durations; both are idempotent and explicit(implicit(m)) equals explicit(m).", "quantifier": "all sequences of durable nodes", "why_tests_cant": "All sequences; each duration depends on the earlier ones.", "anchors": ["quickly/rhythm.py: RhythmExplicit, RhythmImplicit, EditRhythm.may_remove"]}
{"id": "C48", "title": "Copy and paste of rhythm", "statement": "paste(m, copy(m)) leaves all durations unchanged (of all music that can be read from text); paste applies the given durations cyclically to successive durables; without cycle it changes only the first len(durations) ones.", "quantifier": "all music and duration lists", "why_tests_cant": "All sequences.", "anchors": ["quickly/rhythm.py: CopyRhythm, PasteRhythm"]}
{"id": "C49", "title": "Removing durations never changes how the text is read", "statement": "Remove (and implicit, paste) never deletes the duration of an element that requires it, nor one directly followed by a sibling that shows only a duration; scaling removal changes scaling only.", "quantifier": "all music", "why_tests_cant": "All sequences.", "anchors": ["quickly/rhythm.py: Remove, RemoveScaling, RemoveFractionScaling, may_remove", "quickly/dom/lily.py: HandleDuration"]}
{"id": "C50", "title": "Duration and scaling properties of a node", "statement": "Setting duration, scaling or duration_scaling on a durable reads back exactly, setting one leaves the other unchanged, deleting removes it, for all histories.", "quantifier": "all histories of sets and deletes", "why_tests_cant": "All histories.", "anchors": ["quickly/dom/lily.py: HandleDuration"]}
{"id": "C51", "title": "Octave, accidental and octave-check properties of a pitchable", "statement": "octave, accidental and oct_check of a note behave as independent attributes under any history of sets and deletes, and the order of the written children is octave, accidental, octave check.", "quantifier": "all histories", "why_tests_cant": "All histories.", "anchors": ["quickly/dom/lily.py: Pitchable.octave, accidental, oct_check, child_order"]}
{"id": "C52", "title": "Music length", "statement": "The length of sequential music is the sum of the lengths of its parts, of simultaneous music the maximum; wrapping in a tuplet/scale multiplies every length by the factor; position plus length agree: in sequential music the position of a node plus its length is the position of its right sibling; a variable counts as the value it refers to; the duration of a selection is the difference of the positions.", "quantifier": "all music trees", "why_tests_cant": "All trees.", "anchors": ["quickly/time.py: Time, TimeContext", "quickly/dom/lily.py: Music.time_length, Chord.time_length, transforms"]}
{"id": "C53", "title": "Include resolution cannot loop", "statement": "Following includes through Scopes never offers a URL that is already being included, so the chain of scopes is finite for every (even circular) include structure, and each scope's ancestors are distinct documents.", "quantifier": "all include graphs", "why_tests_cant": "All graphs, including cyclic ones.", "anchors": ["quickly/dom/scope.py: Scope"]}
{"id": "C54", "title": "Assigned variables", "statement": "After set_variable(name, v) get_variable(name) is v and all other variables and nodes are unchanged; unset removes it; the list of names is the list of assigned names; for every history the behaviour is that of a map.", "quantifier": "all histories of set, unset, get", "why_tests_cant": "All histories.", "anchors": ["quickly/dom/lily.py: HandleAssignments"]}
{"id": "C55", "title": "Grouping of assignments and lyrics keeps every node", "statement": "handle_assignments and postprocess_lyriclist keep all nodes in order; exactly the patterns name = value become an Assignment; every lyric item takes over the duration that follows it.", "quantifier": "all node streams", "why_tests_cant": "All streams; iterator-sharing loops.", "anchors": ["quickly/lang/lilypond.py: LilyPondTransform.handle_assignments, postprocess_lyriclist"]}
{"id": "C56", "title": "Transposing fixed music and key signatures", "statement": "Transposing a document that contains \\fixed music transposes every note that is heard in it; the pitch of a \\key is transposed but keeps its octave.", "quantifier": "all music, pitches of \\fixed and transposers", "why_tests_cant": "All documents and intervals.", "anchors": ["quickly/transpose.py: Transpose.edit_range"]}
{"id": "C57", "title": "Copying explicit rhythm", "statement": "copy(music, explicit=True) gives for every durable the duration that it has, the same as copy() would give after explicit().", "quantifier": "all music and ranges", "why_tests_cant": "All sequences; each duration depends on the earlier ones.", "anchors": ["quickly/rhythm.py: CopyRhythm"]}
{"id": "C58", "title": "Transforming rhythm", "statement": "transform(music, ...) on a whole document changes the duration of every durable in the way the Transform says, also of those that have no duration written.", "quantifier": "all music and transforms", "why_tests_cant": "All sequences; each duration depends on the earlier ones.", "anchors": ["quickly/rhythm.py: RhythmTransform", "quickly/duration.py: Transform"]}
{"id": "C59", "title": "Variables through includes", "statement": "Looking up a variable from a place in a document finds the value that was last assigned to it in the text before that place, where the text of included files stands in the place of the include commands, and where the text before the include command is searched when the document itself is included.", "quantifier": "all documents, include graphs, places and names", "why_tests_cant": "The include graph, its cycles and the place are unbounded.", "anchors": ["quickly/dom/lily.py: Lookup.preceding_nodes, find_assignment", "quickly/dom/scope.py: Scope.include_scope"]}
{"id": "C60", "title": "Changing a tree through a Range", "statement": "Replacing, inserting or deleting nodes through a Range (range[...] = ..., del range[...]) changes exactly these nodes in the current node; when the changed nodes are before the current position, the iteration continues with the nodes that were still to come; when they are after it, with the new nodes in their place; the boundaries of the range stay at the same nodes.", "quantifier": "all trees, ranges, positions in the iteration and slices", "why_tests_cant": "Every position, boundary and slice; the boundaries are kept as indices that have to move.", "anchors": ["quickly/node.py: Range.__setitem__, __delitem__, _Level"]}
{"id": "C61", "title": "Query operators on nodes", "statement": "node / cls, node // cls, node << cls, node > cls, node < cls and node ^ cls yield exactly the children, descendants, ancestors, right and left siblings, and other nodes, in the documented order, that are an instance of the class (or one of the classes).", "quantifier": "all trees, nodes, and classes", "why_tests_cant": "All trees and nodes.", "anchors": ["quickly/node.py: Node.__truediv__, __floordiv__, __lshift__, __gt__, __lt__, __xor__, instances_of"]}
{"id": "C62", "title": "Indents of lines", "statement": "In indented output every line is indented by start_indent plus indent_width for every indenting element that is open where the line begins, not counting those that are closed by the texts the line begins with; where an element aligns its children, a line is indented to the column of the child it aligns with, if that is not beyond max_align_indent.", "quantifier": "all trees, indent widths and alignment settings", "why_tests_cant": "All trees; the indent is the result of everything written before.", "anchors": ["quickly/dom/indent.py: Indenter"]}
{"id": "C63", "title": "Reading music", "statement": "When music is read from source text, every note, rest, chord, lyric word etc. becomes one node that has its octave, duration, modifiers and articulations (with directions, tweaks and tags nested around the articulation they precede); everything else becomes a node of its own; every token, also of comments, is in the resulting nodes exactly once and in the order of the source.", "quantifier": "all sequences of tokens and contexts", "why_tests_cant": "A state machine with seven pending parts; every token can follow every other one, with comments anywhere.", "anchors": ["quickly/lang/lilypond.py: LilyPondTransform.create_music, MusicBuilder", "quickly/dom/util.py: pop_comments"]}
{"id": "C64", "title": "Reading markup", "statement": "When markup is read from source text, every markup command gets exactly the arguments that follow it, as many as it needs, also when commands are nested and comments stand between them; the markup consists of one expression, and what follows it is not touched; no token is lost or used twice.", "quantifier": "all markup expressions, nested to any depth", "why_tests_cant": "Unbounded nesting; the arguments are read from a shared iterator by nested generators.", "anchors": ["quickly/lang/lilypond.py: LilyPondTransform.create_markup, read_markup_arguments"]}
{"id": "C65", "title": "The language of pitch names at a place", "statement": "find_language() gives for every node the language that the last \\language or language \\include before it selects, or the given one if there is none; follow_language() gives every other node once, in order, while the language attribute has that same value.", "quantifier": "all documents, nodes and language tables", "why_tests_cant": "All documents: the answer depends on everything before the node, and the two methods search in opposite directions.", "anchors": ["quickly/pitch.py: PitchProcessor.find_language, follow_language, get_language"]}
{"id": "C66", "title": "Distilling preferences", "statement": "distill_preferences() switches a preference on if one of the pitch names shows that style, else off if one shows the other style, else leaves it as it was; the order and number of the names do not matter within a language; new pitches are then written in the style that was found.", "quantifier": "all sequences of names and language tables", "why_tests_cant": "All sequences of names with language switches between them.", "anchors": ["quickly/pitch.py: PitchProcessor.distill_preferences, _suitable"]}
{"id": "C67", "title": "Reading Scheme", "statement": "When Scheme code is read from source text, every expression becomes one element: a word, number or string; a list or vector with its data as children, to any depth; a quote with the datum that follows it as child. Every token is in the resulting elements exactly once and in the order of the source. In LilyPond, a hash sign with an expression becomes a Scheme element with exactly that expression.", "quantifier": "all Scheme expressions, nested to any depth", "why_tests_cant": "Unbounded nesting, quotes before anything.", "anchors": ["quickly/lang/scheme.py: SchemeTransform.common, list, vector, root, scheme", "quickly/lang/scheme.py: SchemeAdHocTransform"]}
{"id": "C68", "title": "Numbers in Scheme", "statement": "A Scheme number element writes a number, in its radix, that reads in Scheme as exactly the value of the element.", "quantifier": "all numbers and radixes", "why_tests_cant": "All numbers, of every size.", "anchors": ["quickly/dom/scm.py: Number, Hex, Bin, Oct, Int, Fraction"]}
{"id": "C69", "title": "Python values as Scheme", "statement": "Converting a Python value made of booleans, whole numbers, fractions, strings, symbols, quotes, lists, and tuples of at least two values with create_element_from_value() or the constructors of scm gives an element whose text reads in Scheme as that value: a list is a list, a tuple is a list of pairs with the last value at the end.", "quantifier": "all values, nested to any depth", "why_tests_cant": "Unbounded nesting, all strings with all characters that have to be escaped, all neighbours that need a space between them.", "anchors": ["quickly/dom/scm.py: create_element_from_value, List, Quote, String, Identifier, Dot"]}
{"id": "C70", "title": "Editing a selection", "statement": "Editing with a cursor that has a selection visits exactly the nodes in the selection, and no others; without a selection it visits all nodes, or with range_from_cursor all nodes from the cursor on.", "quantifier": "all documents and selections", "why_tests_cant": "Every position of the begin and end of the selection relative to the tree.", "anchors": ["quickly/dom/edit.py: Edit.edit_cursor", "quickly/node.py: Range.from_nodes, nodes", "quickly/dom/element.py: find_descendant_right, find_descendant_left"]}
{"id": "C71", "title": "Whitespace that elements ask for", "statement": "Between each two texts that are written, by write(), write_indented() or edit(), the whitespace is at least as important as what the first asks for after it and the second before it. So a single-line comment, which asks for a newline after it, never hides what comes after it.", "quantifier": "all trees of elements with any spacing preferences", "why_tests_cant": "Every combination of preferences of neighbours, parents, and elements without text.", "anchors": ["quickly/dom/element.py: points, write, write_indented, edits, edit", "quickly/dom/util.py: collapse_whitespace", "quickly/dom/lily.py: SinglelineComment"]}
{"id": "C72", "title": "Retaining the line breaks of the source", "statement": "After add_newlines(), every text is written on a new line if its token was, with as many newlines as there are in the source text between the previous token and this one, up to max_blank_lines, or with more if the element asks for more; nothing else of the document is changed, and doing it again changes nothing.", "quantifier": "all documents, source texts, separators and maxima", "why_tests_cant": "Every distribution of newlines over the tokens of all trees, with every spacing preference.", "anchors": ["quickly/dom/util.py: add_newlines", "quickly/dom/element.py: points, write, write_indented"]}
{"id": "C73", "title": "Newlines, blank lines, lines and columns in the document are written out", "statement": "An element that has no text of its own can still ask for whitespace: Newline() and BlankLine() for one or two newlines between their neighbours, Line for a newline after it, Column for newlines between its children, and any user element through space_before, space_after and space_between. In the text of write_indented() and write() the gap between the last visible text before the element and the first one after it (for between: between the texts of the two children) is whitespace at least as important as the element asked for.", "quantifier": "every DOM tree, every node in it with visible text before it and some text after it, every space_before, space_after and space_between it may have, every concat_space hook, every indenter setting, and both write() and write_indented()", "why_tests_cant": "An element without text has no place in the output; whether its wish survives depends on how the wishes of its ancestors, its neighbours and its empty siblings are merged, for every tree.", "anchors": ["quickly/dom/base.py: Newline, BlankLine, Line, Column, Text", "quickly/dom/element.py: Element.points, Element.write, concat_space", "quickly/dom/indent.py: Indenter, Indenter.write", "quickly/dom/util.py: collapse_whitespace, combine_text"]}
{"id": "C74", "title": "Regions that are not transformed are kept", "statement": "A document can have regions that are not transformed (scripts and styles in Html): Unknown elements. edit() leaves them exactly as they are. write() raises RuntimeError if there are any; after replace_unknown(tree, text) with the text the tree was read from none is left, each has become a text with exactly its part of the source, all other elements are unchanged and in place, write() succeeds and shows everything in order, and edit() still gives the same document.", "quantifier": "every DOM tree, with any number of unknown regions anywhere in it, every source text, every range for edit(), and whatever other modifications there are in the tree", "why_tests_cant": "The nodes are replaced while the tree is being traversed, at any depth; the position comes from the tokens of each region; and edit() merges all modifications, for every tree.", "anchors": ["quickly/dom/base.py: Unknown", "quickly/dom/util.py: replace_unknown", "quickly/dom/element.py: Element.pos, Element.end, copy_origin_from, copy, write, edits, edit"]}
{"id": "C75", "title": "Html that is built with the element constructor is written properly", "statement": "An element built with m.name(*contents, **attributes), to any depth, is written as exactly that Html: the tag with its name, every attribute in order with its value in quotes, the contents in order, and the closing tag (or a single tag if there are no contents). Whatever characters are in the texts and the attribute values, two different pieces of Html are never written the same, so no text can be taken for a tag or end an attribute. to_plaintext() gives back all texts in order exactly as they were given.", "quantifier": "every tree of elements and texts, with any names, any number of attributes with any values, and any strings as contents; for to_plaintext() also every entity resolver", "why_tests_cant": "The texts can contain anything, including all characters that mean something in Html, and spacing is collapsed over nested elements of any depth; injectivity is about all pairs of trees.", "anchors": ["quickly/dom/htm.py: m, _ElementConstructor, Element.to_plaintext, Text.write_head, EntityRef, CData, OpenTag, CloseTag, SingleTag, Attribute, AttrName, TagName, DqString", "quickly/dom/element.py: Element.write, points, concat"]}
{"id": "C76", "title": "Reading Html shows the document and loses nothing", "statement": "Reading an Html document gives one element for every tag, in document order and nested like the tags, with the tag name, all attributes and their values, the contents and the closing tag; LilyPond music in <lilypond> tags and in the short form is in the right element; scripts, styles and doctypes are kept as unknown regions. Every token is kept in the origin of exactly one node, in order, so writing the unmodified tree back with edit() removes nothing from the document and inserts at most whitespace between texts that had none.", "quantifier": "every Html document: any nesting of elements, texts, entities, tags with any number of attributes, unclosed elements, lilypond-book tags and regions that are not transformed, with any tokens at any positions", "why_tests_cant": "Tags nest to any depth, the reader works on flat lists of tokens and contexts with index arithmetic, and a token that is missed is deleted by edit(); tests see a few documents.", "anchors": ["quickly/lang/html.py: HtmlTransform.root, tag, attrs, lilypond_book_options, dqstring, sqstring, comment, cdata, processing_instruction", "quickly/dom/htm.py: Document, Element, OpenTag, CloseTag, SingleTag, Attribute", "quickly/dom/element.py: Element.with_origin, edits, edit"]}
{"id": "C77", "title": "The other end of a spanner", "statement": "find_parallel() of a slur, beam or other spanner returns the nearest spanner, ahead of it for a start and before it for a stop, that has the same class and an equal spanner id (or both have none) and is the opposite end, and that lies within the nearest assignment, \\new, document or score around the spanner; None is returned only if there is none. With a limit the same node is returned if fewer nodes are passed before it, otherwise None. Asking the found spanner gives the first one back exactly if both are in the same scope and there is no other spanner of the kind between them.", "quantifier": "every DOM tree, every spanner in it, every limit", "why_tests_cant": "Depends on the place of all nodes in an arbitrary tree; tests look at one small tree.", "anchors": ["quickly/dom/lily.py: Spanner.find_parallel, SpannerId", "quickly/node.py: Node.forward, Node.backward, Node.__lshift__, Node.left_sibling, Node.equals"]}
{"id": "C78", "title": "Text elements read back what they write", "statement": "For every text element (words, commands, integers, fractions, octaves, octave checks, comments of LilyPond, Scheme and LaTeX, Scheme characters and booleans, names of LaTeX environments): when the value of the element is written and the text is one element of that kind in a source text, however it is divided in tokens, reading it yields the same value; precisely the values in a stated set are written as one element; and reading an element from a source text always succeeds and writing the value yields the source text (for kinds whose text is the value).", "quantifier": "all kinds of text element, all values, all source texts and all divisions of the text in tokens", "why_tests_cant": "Values are unbounded texts and numbers, and the division in tokens is decided by the lexer; a test tries a few.", "anchors": ["quickly/dom/lily.py:Int,Fraction,Octave,OctCheck,MultilineComment,SinglelineComment", "quickly/dom/scm.py:SinglelineComment,MultilineComment,Char,Bool", "quickly/dom/tex.py:EnvironmentName,Comment", "quickly/dom/base.py:BackslashCommand", "quickly/dom/element.py:TextElement"]}
{"id": "C79", "title": "Reading LaTeX shows the document and loses nothing", "statement": "Reading a LaTeX document yields a tree with its text, braces, math, commands with options and argument, comments, environments and LilyPond music in the order of the document, whatever is nested in what; every token of the document is in the tree, once and in order. If nothing is left open in it, edit() of that tree without changes removes nothing, and inserts a newline after each comment and each environment that is directly followed by something, and nothing else.", "quantifier": "all documents of a grammar of LaTeX (unbounded nesting, unclosed braces, math and environments), all positions", "why_tests_cant": "Nesting of options in commands in environments is unbounded, and options and names come to the transform in separate contexts that it has to put together again; tests read four small texts.", "anchors": ["quickly/lang/latex.py: LatexTransform", "quickly/lang/lilypond.py: LilyPondTransform.latex_lilypond_environment", "quickly/dom/tex.py", "quickly/dom/element.py: Element.edits, HeadElement.head_point"]}
{"id": "C80", "title": "Constructed markup means what was asked", "statement": "Markup that is built with the functions of the markup module (except with_link, and the fret and woodwind diagrams, which do not work), in any combination, is written as text that LilyPond reads as exactly that markup: each function makes its command with as many arguments as that command takes, strings become one text (a word, or a quoted string if needed), other values become the same value in Scheme, more than one argument for one place becomes one bracketed list, and nothing runs into its neighbour. Every markup command with at most four arguments has a function.", "quantifier": "all expressions made of calls of these functions (unbounded nesting), strings, exact numbers and Scheme values; all tables of commands", "why_tests_cant": "A missing bracket or space changes which arguments belong to which command, anywhere in an arbitrarily nested expression; the tests have one example.", "anchors": ["quickly/dom/markup.py", "quickly/dom/lily.py: Markup, MarkupCommand, MarkupList, MarkupWord, Scheme, String", "quickly/dom/scm.py: create_element_from_value", "quickly/dom/element.py: Element.write"]}
{"id": "C81", "title": "Reading a LilyPond text shows it and loses nothing", "statement": "Reading a LilyPond text yields a Document in which every block, music list, chord, figure, mode, list, identifier, string and comment is one element of the class it should have, with its delimiters and its contents in order, commands have their arguments, name = value is an assignment in blocks that have assignments, and words in lyric lists have their durations. Whatever the text is, correct or not, no token is in the tree twice. Of a correct text every token is in the tree exactly once, and in the order of the text (comments before a duration excepted), but for the brace that ends a score, which the code loses.", "quantifier": "all texts: any tree of contexts and tokens (no token twice); all correct texts with unbounded nesting of contexts (nothing lost, order); all signatures and add_argument implementations that keep tokens", "why_tests_cant": "A token that is not in the tree is deleted or written twice by edit(); contexts nest to any depth, in any combination, and every transform method has its own way to pick the tokens. Tests read small texts.", "anchors": ["quickly/lang/lilypond.py: LilyPondTransform, MusicBuilder", "quickly/dom/element.py: build_tree, Element.with_origin"]}
{"id": "C82", "title": "Every command gets its arguments", "statement": "Nodes that follow one another can be read as expressions (a node with its arguments, which are expressions again, with comments between them) in exactly one way in which every argument is one that the signatures of the node allow there, and nothing is left outside that the expression before it could still take. build_tree makes exactly these expressions, to any depth, each node with its arguments added in order.", "quantifier": "all lists of nodes, all signatures, all class relations, all implementations of add_argument, all nesting", "why_tests_cant": "Whether a node is an argument of the command before it, of an enclosing one or of none depends on all nodes before it; a test has one example of each.", "anchors": ["quickly/dom/element.py: build_tree, Element.signatures, Element.add_argument"]}
{"id": "C83", "title": "The commands of LilyPond get the arguments that LilyPond documents", "statement": "Every command of LilyPond that has a class in the dom takes exactly the arguments that LilyPond's manual gives for it, with their kinds and order, up to a list of exceptions: arguments that it should take and does not (commands for tags, predefined commands like \\stemUp and Scheme as music, a number for \\volta and others), the second music of \\pushToTag and \\appendToTag, and three arguments that it should not take. A text of such commands, in any nesting and with comments, is read as the tree that one expects: a note that stands for a pitch becomes a Pitch, a number that stands for a length a Duration, and one that stands for a number an Int, and nothing else is changed.", "quantifier": "all commands, all their documented forms, all arguments; all texts made of them with unbounded nesting", "why_tests_cant": "Signatures are spread over a hundred classes and work by subclass relations: adding a class that is not Music silently leaves its music outside of all enclosing commands. Tests read a handful of commands.", "anchors": ["quickly/dom/lily.py: signatures, add_argument of all classes", "quickly/dom/element.py: build_tree"]}
{"id": "C84", "title": "The musical time at the cursor", "statement": "With the cursor between two items of a music list, anywhere in a document, cursor_position() gives the topmost music expression and the moment at which the next item starts in it. With a selection from before one item to after another item of the list, cursor_duration() gives the sum of the lengths of the selected items, comments and variables included. Between the pitches of a chord the moment is that of the chord; outside of music the result is None.", "quantifier": "all documents whose tokens are in order, all positions and selections between items of a music list", "why_tests_cant": "The result depends on which of many nested nodes is found at the cursor, and on the music before it in all enclosing expressions; the only test has one cursor.", "anchors": ["quickly/time.py: Time.cursor_position, Time.cursor_duration, Time._music_child", "quickly/dom/element.py: Element.find_descendant_right, Element.find_descendant_left"]}
{"id": "C85", "title": "Version, language and file name of a document", "statement": "The version of a document (Document.version, and lilypond_version() of every node in it) is the list of the numbers in the text of the first \\version command in document order, and () if there is none. Setting it to any tuple of numbers changes the text of that command and nothing else, or inserts a \\version command before everything if there is none, and afterwards the version is what was set. Likewise Version.version, Language.language, Include.filename and Include.language: reading gives what was set, the String that was there keeps its place and all other children remain. Attributes like Header.title and Paper.top_margin are variables: reading gives the value that was set, other attributes do not change, None removes the variable. Rel2abs, Abs2rel and Transpose take the first pitch of \\relative as absolute exactly if the version is 2.18 or later.", "quantifier": "all documents (trees of any depth), all texts of versions, all tuples of natural numbers, all texts, all attribute names", "why_tests_cant": "Which command is the first depends on the whole tree, and the text can be anything; the tests set one version in a small document.", "anchors": ["quickly/dom/lily.py: Document.version, Version.version, Language.language, Include.filename, Include.language, _Variable", "quickly/dom/util.py: lilypond_version", "quickly/relative.py: Rel2abs.edit_range, Abs2rel._get_settings", "quickly/transpose.py: Transpose.edit_range"]}
{"id": "C86", "title": "References to variables", "statement": "When a name, a string or a tuple of a string and more strings and numbers, is given to an IdentifierRef it has that name, whatever it was before; and a reference and an Assignment with given names have the same name exactly if the names are the same, so that the reference refers to that variable. The value of a reference is the one that was last assigned to that name in the text before it, with all includes followed.", "quantifier": "all names, all previous contents of the reference, all documents and include graphs", "why_tests_cant": "Names have any number of parts that are symbols, quoted strings or numbers, and the two classes store them in different ways; there are no tests with more than one name.", "anchors": ["quickly/dom/lily.py: IdentifierRef.get_name, IdentifierRef.set_name, IdentifierRef.with_name, Identifier.set_name, Reference.get_value, Reference.get_value_with_scope, Lookup"]}
{"id": "C87", "title": "The length of LilyPond music", "statement": "Time.length() of an expression in a document is the length that LilyPond's manual gives it: a note has the duration that is written, or else that of the note before it in the text (a quarter note at the start), with its scaling, and also if the note before is in another variable, list or command; \\skip does not change that duration; a list takes the sum of its items, simultaneous music the longest one; \\tuplet, \\times, \\scaleDurations and \\shiftDurations change the durations of everything in them, also when nested in each other and through variables; grace notes take no time; variables have the length of the value that was last assigned before, with the duration that was current there; contexts, \\relative, input modes and other commands have the length of their music; all elements that are not played take no time. Wrong are: a chord of drum notes has no length, \\repeat unfold counts its music once, a repeat with alternatives has the length of the longer one of both, \\mark 4 has the length of a quarter note.", "quantifier": "all documents with any number of variables, all expressions of unbounded depth, all durations up to 52 dots, all scalings", "why_tests_cant": "The length of one note depends on all text before it and on all commands around it, so that every combination of commands is a new case; the tests have a few.", "anchors": ["quickly/time.py: Time.length, TimeContext", "quickly/dom/lily.py: time_length, transform, is_sequential, duration_sets_previous of all classes, previous_duration, get_num_value, get_int_value"]}
{"id": "C88", "title": "The text after editing a selection", "statement": "When an Edit is called with a cursor that has a selection, all text before the first and after the last selected node stays as it is, except that whitespace may be inserted. Between them is the text of the points that edit_range() left or made there, in order and with only whitespace between them: text of nodes that were not modified as it was, and new text for all others. With readonly set nothing is changed, when changes() is 0 the text is the same, and edit_document() writes back the whole tree.", "quantifier": "all documents, all selections for which the first node is not after the last one, all implementations of edit_range() that only change what is between those nodes and leave the nodes that remain in order", "why_tests_cant": "Selection, common ancestor, trails and positions of tokens must fit together for every place in a tree and every change; tests edit a few notes and have no text around the selection.", "anchors": ["quickly/dom/edit.py: Edit.edit_cursor, Edit.edit_document, Edit.changes", "quickly/dom/element.py: Element.edit, Element.edits, Element.points"]}
{"id": "C89", "title": "rel2abs changes only what it has to", "statement": "Converting all \\relative music of a document to absolute music comes to an end without an exception, and takes away nothing but the \\relative nodes, their start pitches, comments next to these, and the \\octaveCheck commands in them. All other nodes stay, in the same order; only notes inside \\relative get another name or octave, and keep their octave checks. Nodes that are not in the document or not in the selection are not touched.", "quantifier": "all documents, as trees of nodes in memory", "why_tests_cant": "Lists of children are changed while generators iterate over them, and after every note all \\relative commands of the document are looked for again; the order in which things happen depends on the whole document.", "anchors": ["quickly/relative.py: Rel2abs.edit_range", "quickly/pitch.py: PitchProcessor.follow_language", "quickly/node.py: Node.instances_of, Range.instances_of"]}
{"id": "C90", "title": "Transposing a document changes only its pitches", "statement": "Transposing a document or a selection gives other pitches to selected notes and changes nothing else: all nodes stay in their places, notes that are not selected stay as they are, no octave check comes or goes. It succeeds when all notes can be read in the pitch language that was set last before them and that language has names for the transposed pitches. A document with notes in one or more languages, of which everything is transposed, sounds transposed. Transposing a selection inside \\relative music transposes what is heard.", "quantifier": "all documents, as trees of nodes with any number of \\language commands; all selections; all transposers", "why_tests_cant": "A generator that follows the language calls itself for every kind of node, and six loops take notes from it; which loop gets a note, with which language and which last pitch, depends on everything before it.", "anchors": ["quickly/transpose.py: Transpose.edit_range", "quickly/pitch.py: PitchProcessor.follow_language, PitchProcessor.process", "quickly/dom/edit.py: Edit.edit_cursor"]}
{"id": "C91", "title": "Converting a document to relative music", "statement": "Abs2rel puts a \\relative around every list that has notes of its own and is selected completely, and around every \\chordmode, gives the notes in it other octaves, and changes nothing else; what the range does not touch and what is \\relative already stays as it is. Converting a document succeeds if all its notes can be read, every note keeps the pitch that it had, in one or more pitch languages, and converting it again changes nothing.", "quantifier": "all documents, as trees of nodes; all ranges, whose ends are any nodes; all settings and pitch languages", "why_tests_cant": "Which lists are converted depends on where the range begins and ends in the tree, and the octave of a note on all notes before it in the same list.", "anchors": ["quickly/relative.py: Abs2rel.edit_range, Abs2rel._make_relative_internal", "quickly/node.py: Range.in_range, Range.instances_of, Range._Level", "quickly/pitch.py: PitchProcessor.follow_language"]}
{"id": "C92", "title": "Transposing a document there and back", "statement": "When a document or a selection has been transposed from one pitch to another, transposing the same selection back succeeds and gives exactly the document that was there before: every name and every octave, in absolute, relative and fixed music, chords, keys and octave check commands, in all pitch languages of the document. It holds for selected notes that have the name quickly gives their pitch, have no octave check of their own and were not respelled.", "quantifier": "all documents, as trees of nodes; all selections; all pairs of pitches, and all pairs of transposers that undo each other for the selected notes", "why_tests_cant": "In relative music every octave mark depends on the note before it, as it was and as it is now, and both transpositions keep their own record of these; a selection makes them differ.", "anchors": ["quickly/transpose.py: Transpose.edit_range, Transposer.transpose", "quickly/pitch.py: PitchProcessor.write_node, PitchProcessor.name_octave"]}
{"id": "C93", "title": "Explicit and implicit durations take the same time", "statement": "Making the durations in a range of a document explicit, or implicit, or implicit with one duration per line, does not change when the music takes place: Time.length(), Time.position() and Time.duration() return the same for every node outside notes and chords, also for music after the range, in tuplets and other scaled music, and for variables that are used later.", "quantifier": "all documents with at most one duration per note and none for the notes in a chord; all ranges (for explicit, those that do not start inside a chord); all ways to divide the music into lines", "why_tests_cant": "The length of a note without a duration depends on the last one written before it, anywhere in the document, while \\skip, chords and lyrics each have their own rules; a duration too few changes all the music that follows.", "anchors": ["quickly/rhythm.py: RhythmExplicit.process, RhythmImplicit.process, RhythmImplicitPerLine.process, EditRhythm.durables, EditRhythm.may_remove", "quickly/time.py: Time.length, Time.position, Time.duration", "quickly/dom/lily.py: HandleDuration.duration_scaling, previous_duration"]}
{"id": "C94", "title": "Transforming all durations scales the time", "statement": "Applying a duration transform with a scale and a shift to all durations of a document succeeds, and multiplies every result of Time.length(), Time.position() and Time.duration() by the scale times a power of two: a document with all durations doubled takes twice as long, wherever one looks.", "quantifier": "all documents with at most one duration per note, of which the first note has one; all scales; all shifts, if there is no \\shiftDurations and no duration becomes longer than can be written", "why_tests_cant": "Scaled and shifted durations are read back through tuplets, variables and notes without a duration; tests compare the text of a single list of notes.", "anchors": ["quickly/rhythm.py: RhythmTransform.edit_range", "quickly/duration.py: Transform.transform, Transform.length", "quickly/time.py: Time.length, Time.position, Time.duration"]}
{"id": "C95", "title": "Copies of elements", "statement": "copy() gives new elements of the same classes with the same head values, which know no place in a document, and the copy is written as the original is. copy_with_origin() gives elements that moreover know the places of the originals, and writing back such a copy makes the same changes in the document. copy_origin_from() gives an element the place of another, and nothing else.", "quantifier": "all trees of elements, made by any sequence of calling classes, reading tokens, setting heads and spacing attributes and copying", "why_tests_cant": "Which attributes of an element exist depends on its class, and errors for attributes that do not exist are ignored while copying; a test that copies one kind of element sees nothing of the others.", "anchors": ["quickly/dom/element.py: Element.copy, Element.copy_with_origin, Element.copy_origin_from, TextElement.copy, TextElement.copy_with_origin"]}
{"id": "C96", "title": "Dumping elements as Python code", "statement": "py_dump() prints Python code that, when it is executed, makes the same elements: the same classes, with the same head values and the same children, in the same order; there is one line for every node.", "quantifier": "all trees of elements, for a node without parent or that is the last child of its parent; all indent widths; head values with a repr that can be read", "why_tests_cant": "Commas, newlines and closing parentheses are made by a loop with a stack of iterators, and depend on which ancestors of a node are the last child of their parent.", "anchors": ["quickly/dom/element.py: Element.py_dump"]}
{"id": "C97", "title": "Transposing keeps notes in their key", "statement": "When a document is transposed, notes that were in the key of a \\key statement are in the key that the statement has afterwards, and other notes need the same accidentals relative to the key as before; every note, octave check, start pitch, key and argument that is selected is the transposed one, apart from its octave, and the others stay as they were.", "quantifier": "all documents, selections, transposers, scales of seven notes, modes (names or lists of seven alterations) and languages; keys of which the tonic is not respelled and, for notes in the key, the signature has no more than double sharps and flats", "why_tests_cant": "Keys are transposed by another loop than the notes, in relative music notes are by yet another one, and accidentals come from a rotated list of differences of scales: only a proof can relate them for all keys and intervals.", "anchors": ["quickly/transpose.py: Transpose, Transposer", "quickly/key.py: KeySignature, accidentals"]}
{"id": "C98", "title": "The key signature of a \\key statement", "statement": "key_signature() of a \\key statement gives the KeySignature with the pitch of the statement, read in the language of the processor, and its mode: a name, a variable, or a Scheme list. If the statement is transposed, so is its signature.", "quantifier": "all key statements, with comments in them or not, all pitch languages and modes", "why_tests_cant": "The mode is found with a loop that follows variables and searches Scheme expressions.", "anchors": ["quickly/dom/lily.py: Key.key_signature", "quickly/key.py: KeySignature"]}
{"id": "C99", "title": "Rhythm edits change nothing but durations", "statement": "After remove, remove_scaling, remove_fraction_scaling, explicit, implicit (also per line), transform, copy and paste of quickly.rhythm, a document is the same as before when the Duration nodes are left out: the same nodes, with the same values, in the same order. Nodes outside the range also keep their Duration, with all that is in it. copy() changes nothing at all. A Duration that is added comes after the pitch, chord or text of the node and before its articulations and comments.", "quantifier": "all documents and all ranges; all durations that are pasted, all transforms; for nodes outside the range: all documents in which a Duration has only scalings and comments in it", "why_tests_cant": "An edit adds Durations in the middle of the children of a node, at a place that depends on the class of the node and on the other children, and removes children in a loop over the children.", "anchors": ["quickly/rhythm.py", "quickly/dom/lily.py: HandleDuration", "quickly/dom/element.py: Element.add"]}
{"id": "C100", "title": "Rhythm edits give the nodes the right durations", "statement": "What C47, C48, C49, C57 and C58 say of durations holds for the Duration nodes of documents: after each edit of quickly.rhythm, every node that can have a duration has the duration and scaling that the edit of a list of durations would give it, and copy() and transform() return or raise the same. So pasting a rhythm in the place it was copied from keeps all durations.", "quantifier": "all documents in which a node has at most one Duration and a Duration at most one scaling; all ranges, pasted durations and transforms", "why_tests_cant": "A Duration is a child among others that is added, removed or changed while the document is walked over; which duration counts is found by walking backward over the edited nodes.", "anchors": ["quickly/rhythm.py", "quickly/dom/lily.py: HandleDuration, Duration, previous_duration"]}
{"id": "C101", "title": "Rhythm edits one after another", "statement": "After any sequence of rhythm edits with any ranges, a document is as it should be written: a node has at most one Duration, the Duration at most one scaling, and it is at its place among the children; every duration is what the same sequence of edits of a list of durations would give. So explicit() a second time changes no duration, neither does implicit(), and explicit() gives the same durations whether or not implicit() was called before.", "quantifier": "all documents that are as they should be written (at most one Duration per node, at its place); all sequences of edits, all ranges", "why_tests_cant": "Which Duration is added or removed depends on all durations before it and on the siblings, and the edits before have changed both; the numbers of the nodes in a range must not change by the edits.", "anchors": ["quickly/rhythm.py: EditRhythm", "quickly/dom/lily.py: HandleDuration", "quickly/dom/element.py: Element.add"]}
{"id": "C102", "title": "Walking with a Range", "statement": "Whatever was done with a Range before (goto, iterating in either direction, enter, leave): when it is at a node, forward(upto) and backward(upto) yield exactly the nodes that touch the range, come after (before) the node and are not below it, and are below upto; children() and descendants() yield exactly its children and descendants that touch the range, and at their end the range is at the same node again; and the operators /, //, <<, > , < and ^ yield exactly those nodes among them that match. After enter() and for a new range, the walks begin with the children of the node.", "quantifier": "all trees, all ranges with the end not before the start, all sequences of operations, all values sent to the generators, all arguments of the operators", "why_tests_cant": "The generators work on the stack of levels that the operations before have left, and change it while they run; each sequence of operations is another case.", "anchors": ["quickly/node.py: Range.forward", "quickly/node.py: Range.backward", "quickly/node.py: Range.children", "quickly/node.py: Range.ancestors", "quickly/node.py: Range.descendants", "quickly/node.py: Common"]}
{"id": "C103", "title": "dump() shows the tree", "statement": "node.dump() prints exactly one line for the node and each node below it, in document order: for each ancestor below the node a bar, or a gap if that ancestor is the last child of its parent, then a branch or a last branch for the node itself, then its repr(). In every style the tree can be read back: two nodes that print the same text have trees of the same shape that show the same at every place.", "quantifier": "all trees, all nodes in them, all styles, all repr functions (for reading back: that give one line that begins with <)", "why_tests_cant": "The prefix of a line depends on the place of the node and of all its ancestors among their siblings; that no two trees look the same is a statement about pairs of trees.", "anchors": ["quickly/node.py: Node.dump", "quickly/node.py: Node.is_last", "quickly/node.py: DUMP_STYLES"]}
{"id": "C104", "title": "Music length with variables in other files", "statement": "With Time(scope), the length of music is what it is in the text LilyPond reads, with every include replaced with the text of the file: variables that are assigned in included files are followed, and so are the variables in their values, in the files these are in and in the files that include them, up to the include.", "quantifier": "all documents, include paths and files (also files that include each other or are included more than once), all music C87 covers, wherever the current duration is the same in the file as in the text or the first note has a written duration", "why_tests_cant": "Which assignment is found depends on the place of the reference, the include commands before it in its own file and in all files that include it, and the lookup starts again in another file for every variable in a value; files nest to any depth.", "anchors": ["quickly/time.py: TimeContext.remote_length", "quickly/time.py: Time.length", "quickly/dom/lily.py: Lookup.preceding_nodes", "quickly/dom/lily.py: Lookup.find_assignment", "quickly/dom/lily.py: Reference.get_value_with_scope"]}
{"id": "C105", "title": "Converting to relative and back gives the same document", "statement": "Abs2rel on a whole document and then Rel2abs gives the document as it was: the same nodes in the same order, every note with the same name and octave marks; no \\relative is left.", "quantifier": "all documents without \\relative, in one pitch language, without chords and octave checks in the lists that are converted; with start pitches or without, all versions, all pitch tables", "why_tests_cant": "Every octave written depends on all notes before it in the list, both ways, and the way back replaces nodes while it walks through lists; documents nest to any depth.", "anchors": ["quickly/relative.py: Abs2rel.edit_range", "quickly/relative.py: Abs2rel._make_relative_internal", "quickly/relative.py: Rel2abs.edit_range", "quickly/pitch.py: PitchProcessor.write_node"]}
{"id": "C106", "title": "Pitch edits do not change the time", "statement": "Transposing, Rel2abs and Abs2rel do not change the length of any node (Time.length), nor its time in the music (Time.position), although \\relative and \\octaveCheck nodes come and go and children of notes change.", "quantifier": "all documents without negative durations, all selections, all pitch languages and tables, all nodes outside of notes that are in both documents", "why_tests_cant": "The length of a note without a duration depends on the nodes before it, variables refer to nodes elsewhere, and lists nest to any depth in commands that change durations; a test compares only some nodes of some documents.", "anchors": ["quickly/transpose.py: Transpose.edit_range", "quickly/relative.py: Rel2abs.edit_range", "quickly/relative.py: Abs2rel.edit_range", "quickly/time.py: Time.length", "quickly/time.py: Time.position"]}
{"id": "C107", "title": "Transposing a document twice is transposing it once", "statement": "Transposing a document from a to b and then from b to c gives the document that transposing it from a to c gives, with the same names, octaves and places, in absolute and relative music, chords, \\fixed, \\key and \\octaveCheck, whatever is selected, if no selected note is respelled or has an octave check and the notes are named as quickly names them.", "quantifier": "all documents, all selections, all pitch languages and tables with names in one octave, all transposers that do together what the third does", "why_tests_cant": "The second transposing reads what the first wrote, and in relative music each note is written against the notes before it, selected or not, in pitches that are lowered by the octaves of the transposer; a test compares some documents.", "anchors": ["quickly/transpose.py: Transpose.edit_range", "quickly/transpose.py: Transposer.transpose", "quickly/pitch.py: PitchProcessor.write_node"]}
{"id": "C108", "title": "Music can be transposed before or after it is made absolute", "statement": "Transposing a document and then converting it to absolute music gives the same document, with the same nodes, names and octaves, as converting it first and then transposing it; and if the document can be transposed, all of this succeeds. The document has one pitch language and no \\relative in \\relative or \\fixed, and in \\relative no \\transpose and no notes with an octave check, and every \\octaveCheck is the last in its list.", "quantifier": "all documents of the kind above, all transposers, all pitch languages and tables with names in one octave", "why_tests_cant": "The two ways write different octaves for every note in between, and name notes from different pitches; they agree only if what is remembered of the last note, in chords and octave checks too, is the same in three loops. A test compares some documents.", "anchors": ["quickly/transpose.py: Transpose.edit_range", "quickly/relative.py: Rel2abs.edit_range", "quickly/pitch.py: PitchProcessor.write_node"]}
{"id": "C109", "title": "Music can be made relative, transposed and made absolute again", "statement": "If a document is converted to relative music, transposed, and converted to absolute music, the result is the document that transposing alone gives, with the same names and octaves; with or without start pitches; and if the relative document can be transposed, the document can be transposed as it is. The document has one pitch language and no \\relative, and the music that is converted has no chords, no \\octaveCheck, no \\transpose and no notes with an octave check.", "quantifier": "all documents of the kind above, all transposers, all settings, all pitch languages and tables with names in one octave", "why_tests_cant": "Three commands that each go through the document in their own way must agree about the pitch before every note, also the first one, which may be written in the start pitch or not. A test compares some documents.", "anchors": ["quickly/relative.py: Abs2rel.edit_range", "quickly/transpose.py: Transpose.edit_range", "quickly/relative.py: Rel2abs.edit_range"]}
{"id": "C110", "title": "Music can be transposed before or after it is made relative", "statement": "Transposing a document and then converting it to relative music, without start pitches, gives the same document, with the same names and octaves, as converting it first and then transposing it; if the document can be converted and can be transposed, all of this succeeds. The document has one pitch language; the music that is converted has no chords, no \\octaveCheck, no \\relative or \\transpose in it and no notes with an octave check; and there is nothing to convert in \\fixed, \\key and the pitches of \\transpose.", "quantifier": "all documents of the kind above, all transposers, all pitch languages and tables with names in one octave", "why_tests_cant": "The two ways write different notes in between, and name them from different pitches; they agree only if what is remembered of the note before is the same in all the loops, from the first note on. A test compares some documents.", "anchors": ["quickly/relative.py: Abs2rel.edit_range", "quickly/transpose.py: Transpose.edit_range", "quickly/pitch.py: PitchProcessor.write_node"]}
{"id": "C111", "title": "Rhythm edits do not depend on the pitches", "statement": "If two documents differ only in the names of their notes, their octaves, accidental signs and octave checks, then they differ only in these after any edit of the rhythm (remove, remove_scaling, remove_fraction_scaling, explicit, implicit, implicit per line, transform, paste), and copy gives the same durations for both. So the durations can be edited before or after the music is transposed: the transposed music gets the same durations, and keeps its own pitches.", "quantifier": "all documents in which no note contains a node that can have a duration itself, all edits and ranges, and all transpositions", "why_tests_cant": "An edit looks at siblings, at children and at the notes before, and puts the duration between the children of a note; that none of this depends on the children that belong to the pitch cannot be seen from some notes.", "anchors": ["quickly/rhythm.py: EditRhythm.edit_range", "quickly/rhythm.py: CopyRhythm.edit_range", "quickly/rhythm.py: PasteRhythm.edit_range", "quickly/rhythm.py: RhythmTransform.edit_range", "quickly/transpose.py: Transpose.edit_range", "quickly/dom/element.py: Element.add"]}
{"id": "C112", "title": "Music can be edited part by part", "statement": "For remove, remove_scaling and remove_fraction_scaling, editing a range gives the same durations as editing its two parts one after another, and two of these edits, each with its own range, give the same durations in either order; the same edit of a part of the range, or of the whole again, changes no duration. A range can also be divided for transform, when no exception is raised. implicit does not have this property: the first duration of every part stays.", "quantifier": "all documents as they should be written (at most one Duration per node, at its place), all ranges and all ways to divide them, and all pairs of these edits", "why_tests_cant": "The edits look at siblings that another edit may have changed, and a skip without a duration is not in the range at all; whether a place to divide matters cannot be seen from some places.", "anchors": ["quickly/rhythm.py: EditRhythm.edit_range", "quickly/rhythm.py: EditRhythm.durables", "quickly/rhythm.py: EditRhythm.may_remove", "quickly/rhythm.py: Remove.process", "quickly/rhythm.py: RemoveScaling.process", "quickly/rhythm.py: RemoveFractionScaling.process"]}
{"id": "C113", "title": "Transforming durations twice is transforming them once", "statement": "If transform() succeeds on a range with one Transform, and then with another one, it also succeeds with the sum of both, and gives the same durations; so the order of two Transforms makes no difference, and a Transform followed by its opposite gives the durations back. This holds when the first Transform takes no more dots away than every duration has; when it does, the sum can give other durations.", "quantifier": "all documents as they should be written, all ranges, all pairs of Transforms, durations with at most 52 dots before and after the first one", "why_tests_cant": "Adding Transforms is a promise for every combination of shift, dots and scaling and every duration of a document, a tempo mark among them, of which only the duration is set.", "anchors": ["quickly/rhythm.py: RhythmTransform.edit_range", "quickly/rhythm.py: transform", "quickly/duration.py: Transform.__add__", "quickly/duration.py: Transform.transform"]}
