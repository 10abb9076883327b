notes['C01'] = "Full. str.upper modelled for ASCII."
notes['C03'] = "Proved for every n >= 0, also beyond the documented limit; the parce word tables are assumed."
notes['C04'] = "Full on the float domain; the failure from 53 dots on is proved as C04_too_many_dots."
notes['C05'] = "Full for doubles; zero gives (1, -1) (C05_zero)."
notes['C07'] = "Full for positive doubles; is_writable(0) is True (C07_zero_is_writable)."
notes['C09'] = "Full; the cut-off exception is shown to be needed (C09_cutoff_differs)."
notes['C15'] = "Full; C15_two_preferences is for the two languages with two preferences, français and norsk. Norsk with prefer_classic gives the opposite of what the documentation says (C15_norsk_prefer_classic_inverted)."
notes['C20'] = "Partial: the claim is false for far tonics such as B double sharp (C20_far_tonic_is_wrong); proved for the others, and for all usual signatures."
notes['C22'] = "Full for scales with steps of at most a tone; a wider scale exceeds the bound (C22_wide_scale_exceeds)."
notes['C23'] = "Partial: subtraction has a sign error (C23_sub_does_not_revert) and the results of + and - lack the scale so cannot transpose (C23_sum_cannot_transpose)."
notes['C30'] = "Full for the tree changing methods of Node; `+=` is not modelled."
notes['C33'] = "Partial: nodes() does not yield a start node that is the ancestor (C33_start_above_not_yielded) and yields nodes for an empty range (C33_empty_range_yields), which can also be true as a truth value (C33_empty_range_true; for the other ranges C33_truth); for the other ranges the literal 'between start and end' holds (C33_between_partial), and descendants() is proved in full."
notes['C34'] = "Partial: `in` does not mean 'completely within' (C34_contains_not_complete); `&` is wrong for a range ending at the ancestor (C34_intersects_end_at_ancestor). All else is proved."
notes['C38'] = "Partial: proved for all trees in which existing elements have not been moved; when they are moved, unmodified text is deleted and edits overlap (C38_moved_loses_text). How parce applies the edits is assumed."
notes['C42'] = "Full; the output is also described exactly, line by line."
notes['C43'] = "Full for trees with positions in document order."
notes['C24'] = "Partial: proved for whole documents, in any number of languages that have all names in one octave each; for a selection proved when it goes on to the end of every \\relative and \\fixed it begins in (C24_selected_partial), and notes outside the selection are never changed (C24_unselected). False for a selection that ends inside \\relative (C24_selection), for languages like bagpipe (C24_mixed_octaves), for \\transpose and \\chordmode in \\relative (C24_transpose_in_relative, C24_chordmode_in_relative), and octave checks become wrong with a start pitch and an octave change (C24_octave_check_wrong). Uniqueness of reading and success are proved too. The document is given as music (notes with their language, chords, commands), not as nodes."
notes['C25'] = "Partial: rel2abs is proved for the loops of the code over lists that they change (C25_document_partial), for documents in one language where no \\relative is in another, every \\octaveCheck in \\relative is the last in its list and every \\relative has one node of music; false for all others (C25_two_languages, C25_nested_twice, C25_check_skips, C25_empty_relative), when the node to convert is the \\relative (C25_relative_itself), for \\relative in \\fixed (C25_relative_in_fixed) and \\chordmode in \\relative (C25_chordmode_in_relative). C25_rel2abs_partial is the same for music that is walked over once, and has none of the restrictions on languages, nesting and octave checks. abs2rel is proved for music without chords, octave checks, nested \\relative and \\chordmode, for all of which it is wrong (C25_abs2rel_chord, C25_abs2rel_check, C25_abs2rel_nested, C25_abs2rel_chordmode)."
notes['C56'] = "Partial: false when the name of the \\fixed pitch crosses c (C56_fixed_wrong)."

notes['C46'] = "Partial: false when a durable without duration contains durations, as in c^\\markup \\score { d8 } e (C46_wrong); proved for all other music and all query histories."
notes['C47'] = "Full for music in which chord notes have no duration, and ranges that do not start inside a chord (C47_explicit_starts_inside); explicit() also adds durations to the notes inside chords (C47_explicit_inside_chord)."
notes['C48'] = "Full; pasting a copy changes music that has a note without duration before an unpitched note, which cannot be read from text (C48_paste_copy_unreadable)."
notes['C49'] = "Full. What is between siblings (comments) is not modelled."
notes['C57'] = "Partial: wrong after a \\skip (C57_after_skip); proved for all ranges without \\skip."
notes['C58'] = "Partial: notes before the first written duration are not transformed (C58_initial_not_transformed)."
notes['C50'] = "Full; when a node has more than one DurationScaling child the setter removes only every second one (C50_many_scalings)."
notes['C51'] = "Full; octave = 0 keeps an existing Octave child (C51_octave_zero_keeps_child)."
notes['C52'] = "Partial: Time.duration applies a scale twice when the selection starts at the fraction of a tuplet (C52_duration_wrong), \\afterGrace with a variable has the length of the grace notes (C52_after_grace_variable), and an undefined variable raises TypeError (C52_undefined_variable). All else is proved, also with variables. Includes are not followed in the model; for these see C104."
notes['C53'] = "Partial: proved when the factory gives documents with the url that was asked for; the default factory does not for file: urls, then circular includes never end (C53_circular). Looking for definitions through includes ends too."
notes['C54'] = "Partial: proved for all histories with proper names, starting with a node in which every variable is assigned once. False for booleans (C54_bool), comments after the equal sign (C54_comment), a tuple with one part (C54_single_tuple) and variables that are assigned twice (C54_twice)."
notes['C55'] = "Partial: all nodes are kept and all Assignments are of that form, but after another name the pattern is not recognized (C55_after_name), and a comment separates a syllable from its duration (C55_lyric_comment)."
notes['C59'] = "Full, for a factory that gives documents with the url that was asked for (see C53)."
notes['C60'] = "Partial: true for changes before or after the current node and for slices whose end is not before their begin. Replacing or deleting the current node skips the next one (C60_current_skips), deleting the last child makes iterating raise IndexError (C60_last_raises), replacing or deleting the end node of the range brings the next one into it (C60_end_replaced), del range[-1] does nothing (C60_del_minus_one), and nodes inserted in a node without children do not come (C60_insert_in_empty)."
notes['C61'] = "Full; classes are a type with a subclass relation."
notes['C62'] = "Full for elements that do not align; for those that align the layout is proved to be that of the reference semantics in Indent/Layout.lean, which differs from the property where a grandchild has the same index (C62_align_grandchild) and where a level was closed within the line (C62_align_shifted). Needs that indenting elements have a head and a tail (C62_not_enclosed), as all of quickly.dom have."
notes['C63'] = "Partial: proved for the grammar of correct music in Read/Grammar.lean, which leaves out some places for comments, and strings, variables and markup directly after a tag or tweak without a note before it. The losses are proved: C63_comment_lost, C63_tag_variable_lost, C63_tweak_comment_lost; order: C63_chord_comment_moved and comments before a duration. For all input, no token is used twice."
notes['C64'] = "Partial: a comment directly after the markup command is taken for its argument (C64_comment_replaces); everything else proved for all expressions. The number of arguments of a command is a parameter."
notes['C65'] = "Partial: proved for documents where all languages are known and include has a file name, and where these nodes are not nested. Otherwise KeyError (C65_unknown_raises; the documentation says that only valid languages are followed) and AttributeError (C65_include_raises)."
notes['C66'] = "Partial: the first two parts are full, for all tables. The third is proved for nederlands, deutsch, suomi and espanol (C66_written_partial); it is false for norsk (C66_norsk_other_spelling), english (C66_english_short, C66_english_long_written) and catalan (C66_catalan_nothing)."
notes['C67'] = "Partial: proved for all expressions (grammar in Scheme/Read.lean); for all input no token is used twice. A comment between a quote and its datum is quoted instead of the datum (C67_comment_quoted), a quote before a closing parenthesis is lost (C67_quote_lost), and a comment directly after the hash sign replaces the expression (C67_scheme_comment)."
notes['C68'] = "Partial: proved for all whole numbers and fractions in every radix, against an independent reader. A float in another radix loses its fraction (C68_float_truncated, which says exactly when it is right), and a nan other than math.nan is written as a symbol or raises (C68_other_nan). How Python writes a decimal float is a parameter."
notes['C69'] = "Full for these values, against an independent Scheme reader. Floats are not in the type of values; how Python writes them is a parameter in C68. Tuples of one or no value: C69_single_tuple, C69_empty_tuple."
notes['C70'] = "Partial: proved which nodes are visited for every selection with nodes in it that does not begin inside a node and end past it and that is not one single node. Otherwise false: the nodes inside the last selected node are not visited (C70_last_chord), nothing is visited when one node is selected (C70_one_note), a blank selects the next node (C70_blank), a selection before the end of the first node selects the whole document (C70_begin), a selection after the last node everything before it (C70_end), a selection from inside a block past its end only its first node (C70_past_end), and range_from_cursor at the end the whole document (C70_cursor_at_end)."
notes['C71'] = "Partial: full for write() and write_indented(). For edit() the whitespace meets the wishes or is the whitespace that was in the document (C71_edit_partial), never absent where some is asked for (C71_edit_apart); that does not suffice when a new single-line comment is inserted before an existing node on the same line, which hides the rest of the line (C71_edit_comment_hides)."
notes['C72'] = "Partial: what is set is proved for all documents, and that the newlines are written, by write() and write_indented(); C72_exact_partial: exactly these newlines, if elements do not ask for newlines by themselves. A document where a closing bracket is missing raises IndexError (C72_missing_tail_raises), and newlines inside a token count for the next one, so that a note on the line where a comment ends is put on a new line (C72_multiline_token)."
notes['C73'] = "Full for write_indented(). For write() the property is false for elements without text: C73_write_ignores_newline (Newline() and BlankLine() make no difference at all) and C73_write_ignores_before. It holds for elements with a text of their own (C73_write_before_partial) and for the end of elements whose last child writes something (C73_write_after_partial)."
notes['C74'] = "Partial: holds for descendants that have their origin. False for the node itself, which is not replaced (C74_root_stays), and for copies, which have no origin: every region then becomes the whole source text (C74_copy_whole_text)."
notes['C75'] = "C75_write: the constructor and write() give the Html of the specification. C75_injective: two different pieces of Html (names well formed, texts not cut up) are never written the same. C75_quoted: strings keep their quotes. C75_plaintext: to_plaintext() gives the texts back. Where the code differs from what one expects: C75_resolver_ignored (the entity resolver is not passed on to elements inside the element) and C75_cdata (CData writes `<[CDATA[` instead of `<![CDATA[`, and is not part of the plain text)."
notes['C76'] = "C76_read: the tree that is read is the tree of the specification, for every document of the grammar. C76_edit_partial: without comments, edit() of the unmodified tree removes nothing and only inserts whitespace where there was none. The property does not hold for comments, CDATA sections and processing instructions: they are read, but then dropped, and C76_comments_deleted proves that edit() deletes every token of them. C76_lone_quote: a lone quote at the end of the document is head and tail of its string."
notes['C77'] = "Spanners are assumed to have no child nodes, and to come after the id in a SpannerId (Leaves, Ids: what the reader builds); limit is not negative. Findings: a search looks into other \\new nodes that are inside the scope, so the found spanner need not find the first one (C77_looks_into_other_context), and of two starts both find the same stop (C77_two_starts)."
notes['C78'] = "False of the code for the Scheme block comment: Guile closes it with !#, the code looks for #!, so the !# becomes part of the value and #! is written behind it (proved for all of them). The constructor accepts comments that are written as something else (text beginning with a brace, newlines, %} inside). Both are proved. C78_index_error says when reading raises IndexError."
notes['C79'] = "C79_read and C79_tokens hold for all documents of the grammar, C79_edit and C79_newlines for those of it in which nothing is left open; C79_newlines for LilyPond music of one node each. A brace that is left open is closed by edit() (C79_open_brace). Defects that are proved: a comment directly followed by text that begins with the newline gets one more newline on every edit() (C79_comment_newline); of an option that is not closed the [ is lost and edit() raises IndexError (C79_open_option); \\begin{lilypond}[options] at the end of the text raises IndexError (C79_open_lilypond); the start of an unfinished environment in another one is taken for its end (C79_begin_taken_for_end). Text between two options is dropped and is not in the grammar. A second argument in braces is not a child of the command but its sibling."

notes['C80'] = "C80_means holds for all expressions (exact numbers; floats are not in it), for any table of commands that agrees with LilyPond on the commands with a function of their own; the regular expression for words is a parameter, with the condition that what it accepts is a word. Defects that are proved: with_link makes \\with-color (C80_with_link), fret_diagram, fret_diagram_terse, fret_diagram_verbose and woodwind_diagram raise NameError (C80_undefined). score and score_lines (which contain music) are not in it."
notes['C81'] = "C81_no_token_twice holds for every text for which the methods do not raise. C81_read_partial, C81_nothing_lost_partial and C81_order_partial are for texts of a grammar: the music in a context is correct in the sense of C63, and only tokens with a meaning are where the methods drop unknown tokens. Contexts inside the head of a block, and Scheme, are given. Defects that are proved: the closing brace of a score is lost (C81_score_brace_lost_partial), an alteration after a comment in a figure becomes a child of the comment (C81_figure_comment), a comment between the dots of a duration is lost (C81_duration_comment_lost)."
notes['C82'] = "C82_nesting, C82_unique and C82_always together: there is exactly one list of proper expressions for every input, and build_tree makes it. The signatures are given for every node; they have at least one entry each (all signatures in the source do). A class whose signatures() yields nothing for a node takes a comment after it; that is in the model."
notes['C83'] = "C83_accepts is exact for all classes but base classes and elements that are only made inside others (the list inner). The forms are our reading of LilyPond's manual and part of the specification; Scheme as an argument is only in it where the manual writes it, and for music. C83_takes_partial and C83_text_partial are partial because of the exceptions, which C83_refused proves to be exceptions. Defects that are proved: the music of \\relative c' \\tag #'x {...} is outside of the \\relative (C83_relative_tag, the same for any command that takes music and any element of the list commands2); in \\relative c4 the only note becomes the start pitch, \\mark 4 has a length, single lengths as music in \\tuplet and \\scaleDurations become a Duration or Int (C83_confused)."
notes['C84'] = "C84_position and C84_selection hold for all music lists outside chords; inside a chord the moment is that of the chord (C84_in_chord), outside of music the result is None (C84_outside). Defects that are proved: after everything in the text cursor_position raises TypeError (C84_end_of_text); after the last item of a list the position is that of the next expression (C84_after_last); a selection that ends between the articulations of a note does not count the note (C84_part_of_note). Parce's Cursor is given by its positions."
notes['C85'] = "C85_numbers says for every text what its numbers are; which characters are decimal digits and their values is a parameter (ASCII digits have their value, the dot is none). Python's limit of 4300 digits is not modelled. C85_attribute_partial is partial because a boolean can be set but not read back (C54_bool). Defect that is proved: Include.language raises AttributeError if there is no file name (C85_include_raises)."
notes['C86'] = "Defects that are proved: IdentifierRef.with_name raises TypeError for every name (C86_with_name), and Reference.get_value does not use its argument wait: it waits (C86_wait). is_symbol is a parameter with the condition that the empty text is no symbol. C86_value uses the model of C59, with names that are strings."
notes['C87'] = "C87_length_partial is partial because it says nothing of \\repeat other than volta, alternatives, drum chords and figured bass, \\afterGrace with a variable (C52), \\tag and other commands that are not Music, negative numbers of dots, and variables in include files (C104). Defects that are proved: C87_drum_chord, C87_repeat_once, C87_alternatives, C87_mark, C87_tag (music in \\tag, \\keepWithTag, \\applyMusic and others of that kind has length 0). Which classes are played is a table in the specification; the class hierarchy is not used in it. Trees that the parser makes are not characterised here: see C81 and C83."
notes['C88'] = "The range that is given to edit_range is that of C70; edit_range is a parameter. Whitespace is inserted also outside the selection, even if the edit changes nothing (C88_inserts_outside). Nodes outside the ancestor of the range, which edit_range could change too, are not written back and not modelled."
notes['C89'] = "Partial: the same restrictions as for C25_document_partial. False for selections: \\relative music outside the selection is converted too (C89_outside_selection); comments between \\relative and its music are lost (C89_comment_lost). C89_ends: the edit comes to an end for all documents, languages and selections, with one result or one exception. C89_selection holds for all of them where there is no exception; it says what can be changed or taken away, but not where. C89_every_tree shows that the hypotheses on the nodes in memory can be met for every tree."
notes['C90'] = "What is changed and when it succeeds is proved for all documents and selections; what is heard (C90_sounds_partial) for documents without odd nodes in chords and comments in \\transpose, with the restrictions of C24_transposes_partial. False for a comment among the pitches of \\transpose (C90_comment_in_transpose) and for a selection inside \\relative, which is read as absolute music (C90_inside_relative). C24_document shows that the document and the music of C24 are transposed alike."
notes['C91'] = "What is changed (C91_edited) is proved for all ranges of all documents, and that the second time nothing changes (C91_again) for whole documents. What is heard is proved for whole documents (C91_sounds_partial), and for all ranges with the document around them (C91_range_partial), with restrictions: no chords, octave checks, \\relative and \\chordmode in a list that is converted (as in C25), nothing to convert in \\fixed, and \\language only after the first note of a converted list. Defects that are proved: a \\language outside the lists is not seen (C91_language), a start pitch in the wrong language (C91_start_language), \\chordmode is converted when a part is selected (C91_chordmode_selected), a selection inside \\relative is read as absolute music (C91_inside_relative)."
notes['C92'] = "The model is that of C90. C92_back is for any two transposers that undo each other for the selected notes, C92_swapped for transposers between two pitches, where a note must not be respelled. What the conditions exclude does fail: a respelled note (C92_respelled), a note with another name than quickly gives it (C92_other_name), an octave check in \\relative with a start pitch (C92_octave_check)."
notes['C93'] = "The nodes are those of C87, with the Duration as a child of the note; a range is an interval of the nodes that can have a duration. False for explicit with a range that starts inside a chord (C93_starts_inside)."
notes['C94'] = "The shift needs durations that can be written, before and after. What the conditions exclude does fail: a first note without a duration keeps the default one (C94_default_duration), with \\shiftDurations a length can become an exception (C94_shift_durations)."
notes['C95'] = "False for elements of which a spacing attribute differs from that of the class: copies lose it, because the code reads an attribute _spacing that does not exist (C95_spacing_lost; C95_copy_exact and C95_copy_edits_exact say what is written then). Head values are those that the constructor leaves to be written in the same way."
notes['C96'] = "Python is a small reader of calls with positional arguments in Dump/Spec.lean; class names and head values are parameters. The code for a node that is not the last child of its parent ends with a comma (C96_not_last)."
notes['C97'] = "Documents as for C90, `Clear` (pitches in front of \\relative and so on have nothing in them). A key with a triple sharp is not kept, notes in it are respelled (C97_respelled_leaves_key)."
notes['C98'] = "False for a mode that is a variable: the code swaps the value and the scope, and the result is None (C98_variable), or TypeError if it is not defined (C98_undefined). A list of pairs as LilyPond has it gives a signature of two accidentals (C98_pairs)."
notes['C99'] = "The edits run on document nodes of the 200 classes of Verif.Signature, as in C93; a range is an interval of the numbers of the nodes that can have a duration."
notes['C100'] = "C100_refines is a simulation between the edits of Verif.RhythmEdits (document nodes) and those of Verif.Rhythm (labels), for which C47, C48, C49, C57 and C58 are stated. A Duration may not follow a durable as its sibling; it is a child of the node it belongs to."
notes['C101'] = "C101_orderly and C101_sequence are for all edits; the statements about two edits follow from C47 by C100. Nodes of the abstract class Durable are excluded (they cannot be written)."
notes['C102'] = "upto must be an ancestor of the current node, as documented. C102_own_ancestor: after enter(), ancestors() (and <<) yields the current node as its own first ancestor."
notes['C103'] = "repr() is any function of the node and what is below it; an Assignment to a quoted name with a newline is shown in two lines, and is not covered by C103_readable."
notes['C104'] = "C104_variables_partial, C104_as_text_partial and C104_length_partial are partial because the current duration is not kept across an \\include, which is a defect: previous_duration() looks in the same document only (C104_include_duration). C104_length_partial also misses what C87 misses. The files exist, and are those of the Scope model: the include path is the same for all scopes."
notes['C105'] = "C105_back_partial is partial because of what the two conversions do not have in common: abs2rel leaves chords as they are and rel2abs does not (C105_chord), and rel2abs removes \\octaveCheck. The specification does not tell music lists from other nodes that are neither notes nor one of the commands."
notes['C106'] = "C106_rel2abs is for edits that come to an end without an exception, on documents where every \\relative has its music (ShapeL). The pitch edits and Time are modelled on two views of a document; View and nd say how the second view comes from the first, for any classes, heads and octave nodes that fit (Fits). C106_simultaneous shows where it fails for Abs2rel."
notes['C107'] = "C107_respelled and C107_octave_check show where it fails."
notes['C108'] = "C108_octave_check, C108_transpose_in_relative, C108_relative_in_fixed and C108_selection show where the order matters."
notes['C109'] = "Partial because of what the commands do with chords (C105_chord), octave checks (C109_octave_check) and \\transpose (C108_transpose_in_relative); missing is also more than one pitch language."
notes['C110'] = "C110_start_pitch and C110_chord show where the order matters; C109_octave_check and C108_transpose_in_relative have the commands that make it matter for octave checks and \\transpose."
notes['C111'] = "bare is the document without its pitches, Plain says that no note has a child that can have a duration. The ranges are numbers of nodes that can have a duration, so they name the same nodes in both documents. With C99, which says that everything but the durations stays, this determines the result."
notes['C112'] = "The durations are compared (values), not the nodes inside them; by C99 everything else stays. The ranges are numbers of nodes that can have a duration. C112_implicit_parts shows that implicit() does depend on how the range is divided; C112_transform is for transform() when no exception is raised; explicit() and paste() are not treated here."
notes['C13'] = "C13_to_midi_error says for which notes to_midi fails; C13_negative_note is a finding: a negative note is taken from the end of the scale in the same octave (Pitch documents the range 0..6 for notes). The example in the docstring of from_midi shows octave=1 for key 60, the code gives octave 0, as the class documents for middle C."
notes['C113'] = "Fits says that a duration can be written and that the first Transform cuts off no dots. The durations are compared; by C99 everything else stays. C113_cut_off shows that the condition is needed. Nothing is said when one of the transforms raises an exception."
