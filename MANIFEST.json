{
 "claims": [
  {
   "property": "C01",
   "status": "proved",
   "theorems": [
    "Quickly.Numbering.C01_int2roman_is_standard",
    "Quickly.Numbering.C01_roman_roundtrip",
    "Quickly.Numbering.C01_int2roman_domain",
    "Quickly.Numbering.C01_int2roman_injective",
    "Quickly.Numbering.C01_roman2int_domain"
   ],
   "note": "Full. str.upper modelled for ASCII."
  },
  {
   "property": "C02",
   "status": "proved",
   "theorems": [
    "Quickly.Numbering.C02_letter_roundtrip",
    "Quickly.Numbering.C02_word_roundtrip",
    "Quickly.Numbering.C02_empty_iff",
    "Quickly.Numbering.C02_letter2int_domain",
    "Quickly.Numbering.C02_empty_alphabet",
    "Quickly.Numbering.C02_shorter_is_smaller"
   ],
   "note": ""
  },
  {
   "property": "C03",
   "status": "proved",
   "theorems": [
    "Quickly.Numbering.C03_int2text_denotes",
    "Quickly.Numbering.C03_int2text_injective",
    "Quickly.Numbering.C03_int2text_total",
    "Quickly.Numbering.C03_int2text_shape"
   ],
   "note": "Proved for every n >= 0, also beyond the documented limit; the parce word tables are assumed."
  },
  {
   "property": "C04",
   "status": "proved",
   "theorems": [
    "Quickly.Duration.C04_duration_value",
    "Quickly.Duration.C04_log_dotcount_duration",
    "Quickly.Duration.C04_too_many_dots",
    "Quickly.Duration.C04_duration_injective"
   ],
   "note": "Full on the float domain; the failure from 53 dots on is proved as C04_too_many_dots."
  },
  {
   "property": "C05",
   "status": "proved",
   "theorems": [
    "Quickly.Duration.C05_truncation",
    "Quickly.Duration.C05_zero"
   ],
   "note": "Full for doubles; zero gives (1, -1) (C05_zero)."
  },
  {
   "property": "C06",
   "status": "proved",
   "theorems": [
    "Quickly.Duration.C06_string_roundtrip",
    "Quickly.Duration.C06_too_long",
    "Quickly.Duration.C06_string_truncates"
   ],
   "note": ""
  },
  {
   "property": "C07",
   "status": "proved",
   "theorems": [
    "Quickly.Duration.C07_is_writable_iff",
    "Quickly.Duration.C07_zero_is_writable"
   ],
   "note": "Full for positive doubles; is_writable(0) is True (C07_zero_is_writable)."
  },
  {
   "property": "C08",
   "status": "proved",
   "theorems": [
    "Quickly.Duration.C08_shift_value",
    "Quickly.Duration.C08_shift_scales",
    "Quickly.Duration.C08_shift_compose",
    "Quickly.Duration.C08_shift_inverse"
   ],
   "note": ""
  },
  {
   "property": "C09",
   "status": "proved",
   "theorems": [
    "Quickly.Duration.C09_add_assoc",
    "Quickly.Duration.C09_add_comm",
    "Quickly.Duration.C09_add_identity",
    "Quickly.Duration.C09_bool_iff",
    "Quickly.Duration.C09_transform_add",
    "Quickly.Duration.C09_length",
    "Quickly.Duration.C09_cutoff_differs"
   ],
   "note": "Full; the cut-off exception is shown to be needed (C09_cutoff_differs)."
  },
  {
   "property": "C10",
   "status": "proved",
   "theorems": [
    "Quickly.Datatypes.C10_history",
    "Quickly.Datatypes.C10_eq_extensional",
    "Quickly.Datatypes.C10_add_assoc",
    "Quickly.Datatypes.C10_add_identity"
   ],
   "note": ""
  },
  {
   "property": "C11",
   "status": "proved",
   "theorems": [
    "Quickly.Pitch.C11_relative_after_absolute",
    "Quickly.Pitch.C11_absolute_after_relative",
    "Quickly.Pitch.C11_only_octave"
   ],
   "note": ""
  },
  {
   "property": "C12",
   "status": "proved",
   "theorems": [
    "Quickly.Pitch.C12_nearest",
    "Quickly.Pitch.C12_octave_marks",
    "Quickly.Pitch.C12_any_scale"
   ],
   "note": ""
  },
  {
   "property": "C13",
   "status": "proved",
   "theorems": [
    "Quickly.Pitch.C13_to_midi_error",
    "Quickly.Pitch.C13_negative_note",
    "Quickly.Pitch.C13_round_trip",
    "Quickly.Pitch.C13_spelling",
    "Quickly.Pitch.C13_default_flats"
   ],
   "note": "C13_to_midi_error says for which notes to_midi fails; C13_negative_note is a finding: a negative note is taken from the end of the scale in the same octave (Pitch documents the range 0..6 for notes). The example in the docstring of from_midi shows octave=1 for key 60, the code gives octave 0, as the class documents for middle C."
  },
  {
   "property": "C14",
   "status": "proved",
   "theorems": [
    "Quickly.Pitch.C14_trichotomy",
    "Quickly.Pitch.C14_transitive",
    "Quickly.Pitch.C14_consistent",
    "Quickly.Pitch.C14_eq_copy"
   ],
   "note": ""
  },
  {
   "property": "C15",
   "status": "proved",
   "theorems": [
    "Quickly.Pitch.C15_name_reads_back",
    "Quickly.Pitch.C15_key_error",
    "Quickly.Pitch.C15_preference",
    "Quickly.Pitch.C15_two_preferences",
    "Quickly.Pitch.C15_norsk_prefer_classic_inverted"
   ],
   "note": "Full; C15_two_preferences is for the two languages with two preferences, français and norsk. Norsk with prefer_classic gives the opposite of what the documentation says (C15_norsk_prefer_classic_inverted)."
  },
  {
   "property": "C16",
   "status": "proved",
   "theorems": [
    "Quickly.Pitch.C16_write_read",
    "Quickly.Pitch.C16_write_succeeds",
    "Quickly.Pitch.C16_unchanged",
    "Quickly.Pitch.C16_name_kept",
    "Quickly.Pitch.C16_process",
    "Quickly.Pitch.C16_pitchable"
   ],
   "note": ""
  },
  {
   "property": "C17",
   "status": "proved",
   "theorems": [
    "Quickly.Pitch.C17_round_trip",
    "Quickly.Pitch.C17_minimal",
    "Quickly.Pitch.C17_additive",
    "Quickly.Pitch.C17_to_string"
   ],
   "note": ""
  },
  {
   "property": "C18",
   "status": "proved",
   "theorems": [
    "Quickly.Pitch.C18_exact",
    "Quickly.Pitch.C18_error"
   ],
   "note": ""
  },
  {
   "property": "C19",
   "status": "proved",
   "theorems": [
    "Quickly.Key.C19_alterations",
    "Quickly.Key.C19_accidentals",
    "Quickly.Key.C19_tonic_fifth",
    "Quickly.Key.C19_circle",
    "Quickly.Key.C19_modes",
    "Quickly.Key.C19_no_mode",
    "Quickly.Key.C19_sum"
   ],
   "note": ""
  },
  {
   "property": "C20",
   "status": "partial",
   "theorems": [
    "Quickly.Key.C20_sounds_partial",
    "Quickly.Key.C20_own_accidentals",
    "Quickly.Key.C20_far_tonic_is_wrong",
    "Quickly.Key.C20_usual_signatures"
   ],
   "note": "Partial: the claim is false for far tonics such as B double sharp (C20_far_tonic_is_wrong); proved for the others, and for all usual signatures."
  },
  {
   "property": "C21",
   "status": "proved",
   "theorems": [
    "Quickly.Transpose.C21_same_interval",
    "Quickly.Transpose.C21_from_to",
    "Quickly.Transpose.C21_staff"
   ],
   "note": ""
  },
  {
   "property": "C22",
   "status": "proved",
   "theorems": [
    "Quickly.Transpose.C22_terminates",
    "Quickly.Transpose.C22_deterministic",
    "Quickly.Transpose.C22_bounds",
    "Quickly.Transpose.C22_major_scale",
    "Quickly.Transpose.C22_respell_only_when_needed",
    "Quickly.Transpose.C22_wide_scale_exceeds"
   ],
   "note": "Full for scales with steps of at most a tone; a wider scale exceeds the bound (C22_wide_scale_exceeds)."
  },
  {
   "property": "C23",
   "status": "partial",
   "theorems": [
    "Quickly.Transpose.C23_add_interval",
    "Quickly.Transpose.C23_add_transposes",
    "Quickly.Transpose.C23_sum_cannot_transpose",
    "Quickly.Transpose.C23_sub_moves",
    "Quickly.Transpose.C23_sub_interval_partial",
    "Quickly.Transpose.C23_add_sub_partial",
    "Quickly.Transpose.C23_sub_does_not_revert"
   ],
   "note": "Partial: subtraction has a sign error (C23_sub_does_not_revert) and the results of + and - lack the scale so cannot transpose (C23_sum_cannot_transpose)."
  },
  {
   "property": "C24",
   "status": "partial",
   "theorems": [
    "Quickly.Relative.C24_transposes_partial",
    "Quickly.Relative.C24_succeeds",
    "Quickly.Relative.C24_octave_checks_partial",
    "Quickly.Relative.C24_sound_unique",
    "Quickly.Relative.C24_selection",
    "Quickly.Relative.C24_transpose_in_relative",
    "Quickly.Relative.C24_chordmode_in_relative",
    "Quickly.Relative.C24_transpose_arguments",
    "Quickly.Relative.C24_mixed_octaves",
    "Quickly.Relative.C24_octave_check_wrong",
    "Quickly.Relative.C24_selected_partial",
    "Quickly.Relative.C24_unselected",
    "Quickly.TransposeDoc.C24_document"
   ],
   "note": "Partial: proved for whole documents, in any number of languages that have all names in one octave each; for a selection proved when it goes on to the end of every \\relative and \\fixed it begins in (C24_selected_partial), and notes outside the selection are never changed (C24_unselected). False for a selection that ends inside \\relative (C24_selection), for languages like bagpipe (C24_mixed_octaves), for \\transpose and \\chordmode in \\relative (C24_transpose_in_relative, C24_chordmode_in_relative), and octave checks become wrong with a start pitch and an octave change (C24_octave_check_wrong). Uniqueness of reading and success are proved too. The document is given as music (notes with their language, chords, commands), not as nodes."
  },
  {
   "property": "C25",
   "status": "partial",
   "theorems": [
    "Quickly.Rel2abs.C25_document_partial",
    "Quickly.Rel2abs.C25_check_skips",
    "Quickly.Rel2abs.C25_nested_twice",
    "Quickly.Rel2abs.C25_two_languages",
    "Quickly.Rel2abs.C25_empty_relative",
    "Quickly.Rel2abs.C25_relative_itself",
    "Quickly.Relative.C25_rel2abs_partial",
    "Quickly.Relative.C25_no_relative_left",
    "Quickly.Relative.C25_relative_in_fixed",
    "Quickly.Relative.C25_chordmode_in_relative",
    "Quickly.Relative.C25_abs2rel_partial",
    "Quickly.Relative.C25_round_trip_partial",
    "Quickly.Relative.C25_abs2rel_chord",
    "Quickly.Relative.C25_abs2rel_check",
    "Quickly.Relative.C25_abs2rel_nested",
    "Quickly.Relative.C25_abs2rel_chordmode"
   ],
   "note": "Partial: rel2abs is proved for the loops of the code over lists that they change (C25_document_partial), for documents in one language where no \\relative is in another, every \\octaveCheck in \\relative is the last in its list and every \\relative has one node of music; false for all others (C25_two_languages, C25_nested_twice, C25_check_skips, C25_empty_relative), when the node to convert is the \\relative (C25_relative_itself), for \\relative in \\fixed (C25_relative_in_fixed) and \\chordmode in \\relative (C25_chordmode_in_relative). C25_rel2abs_partial is the same for music that is walked over once, and has none of the restrictions on languages, nesting and octave checks. abs2rel is proved for music without chords, octave checks, nested \\relative and \\chordmode, for all of which it is wrong (C25_abs2rel_chord, C25_abs2rel_check, C25_abs2rel_nested, C25_abs2rel_chordmode)."
  },
  {
   "property": "C26",
   "status": "proved",
   "theorems": [
    "Quickly.Node.C26_descendants",
    "Quickly.Node.C26_trail_order",
    "Quickly.Node.C26_trail_total"
   ],
   "note": ""
  },
  {
   "property": "C27",
   "status": "proved",
   "theorems": [
    "Quickly.Node.C27_send_false",
    "Quickly.Node.C27_filter"
   ],
   "note": ""
  },
  {
   "property": "C28",
   "status": "proved",
   "theorems": [
    "Quickly.Node.C28_forward_send",
    "Quickly.Node.C28_forward",
    "Quickly.Node.C28_backward",
    "Quickly.Node.C28_partition"
   ],
   "note": ""
  },
  {
   "property": "C29",
   "status": "proved",
   "theorems": [
    "Quickly.Node.C29_common_ancestor",
    "Quickly.Node.C29_different_trees",
    "Quickly.Node.C29_symmetric",
    "Quickly.Node.C29_with_trail"
   ],
   "note": ""
  },
  {
   "property": "C30",
   "status": "proved",
   "theorems": [
    "Quickly.Heap.C30_parent_links",
    "Quickly.Heap.C30_one_place",
    "Quickly.Heap.C30_no_cycles",
    "Quickly.Heap.C30_take",
    "Quickly.Heap.C30_not_taken_out"
   ],
   "note": "Full for the tree changing methods of Node; `+=` is not modelled."
  },
  {
   "property": "C31",
   "status": "proved",
   "theorems": [
    "Quickly.Node.C31_equals",
    "Quickly.Node.C31_equivalence",
    "Quickly.Node.C31_copy",
    "Quickly.Node.C31_copy_shallow"
   ],
   "note": ""
  },
  {
   "property": "C32",
   "status": "proved",
   "theorems": [
    "Quickly.Node.C32_depth",
    "Quickly.Node.C32_root",
    "Quickly.Node.C32_height"
   ],
   "note": ""
  },
  {
   "property": "C33",
   "status": "partial",
   "theorems": [
    "Quickly.NodeRange.C33_descendants_send",
    "Quickly.NodeRange.C33_nodes_send",
    "Quickly.NodeRange.C33_nodes",
    "Quickly.NodeRange.C33_from_nodes",
    "Quickly.NodeRange.C33_between_partial",
    "Quickly.NodeRange.C33_start_above_not_yielded",
    "Quickly.NodeRange.C33_empty_range_yields",
    "Quickly.NodeRange.C33_truth",
    "Quickly.NodeRange.C33_empty_range_true"
   ],
   "note": "Partial: nodes() does not yield a start node that is the ancestor (C33_start_above_not_yielded) and yields nodes for an empty range (C33_empty_range_yields), which can also be true as a truth value (C33_empty_range_true; for the other ranges C33_truth); for the other ranges the literal 'between start and end' holds (C33_between_partial), and descendants() is proved in full."
  },
  {
   "property": "C34",
   "status": "partial",
   "theorems": [
    "Quickly.NodeRange.C34_in_range",
    "Quickly.NodeRange.C34_contains",
    "Quickly.NodeRange.C34_is_full",
    "Quickly.NodeRange.C34_completely_partial",
    "Quickly.NodeRange.C34_contains_not_complete",
    "Quickly.NodeRange.C34_intersects",
    "Quickly.NodeRange.C34_outside",
    "Quickly.NodeRange.C34_intersects_end_at_ancestor",
    "Quickly.NodeRange.C34_goto"
   ],
   "note": "Partial: `in` does not mean 'completely within' (C34_contains_not_complete); `&` is wrong for a range ending at the ancestor (C34_intersects_end_at_ancestor). All else is proved."
  },
  {
   "property": "C35",
   "status": "proved",
   "theorems": [
    "Quickly.NodeRange.C35_extract_tree"
   ],
   "note": ""
  },
  {
   "property": "C36",
   "status": "proved",
   "theorems": [
    "Quickly.Text.C36_collapse",
    "Quickly.Text.C36_collapse_none",
    "Quickly.Text.C36_collapse_unique",
    "Quickly.Text.C36_combine",
    "Quickly.Text.C36_texts",
    "Quickly.Text.C36_piecewise",
    "Quickly.Text.C36_tab_not_piecewise"
   ],
   "note": ""
  },
  {
   "property": "C37",
   "status": "proved",
   "theorems": [
    "Quickly.Text.C37_texts",
    "Quickly.Text.C37_squeezed",
    "Quickly.Text.C37_child",
    "Quickly.Text.C37_between",
    "Quickly.Text.C37_after_head",
    "Quickly.Text.C37_compositional"
   ],
   "note": ""
  },
  {
   "property": "C38",
   "status": "partial",
   "theorems": [
    "Quickly.Edits.C38_sorted_partial",
    "Quickly.Edits.C38_text_partial",
    "Quickly.Edits.C38_untouched_partial",
    "Quickly.Edits.C38_removed_partial",
    "Quickly.Edits.C38_unchanged",
    "Quickly.Edits.C38_moved_loses_text",
    "Quickly.Edits.C38_start_after_first",
    "Quickly.Edits.C38_deletes_outside_range"
   ],
   "note": "Partial: proved for all trees in which existing elements have not been moved; when they are moved, unmodified text is deleted and edits overlap (C38_moved_loses_text). How parce applies the edits is assumed."
  },
  {
   "property": "C39",
   "status": "proved",
   "theorems": [
    "Quickly.Build.C39_content",
    "Quickly.Build.C39_listing",
    "Quickly.Build.C39_attached",
    "Quickly.Build.C39_greedy"
   ],
   "note": ""
  },
  {
   "property": "C40",
   "status": "proved",
   "theorems": [
    "Quickly.Add.C40_keeps_children",
    "Quickly.Add.C40_unlisted",
    "Quickly.Add.C40_place",
    "Quickly.Add.C40_respects",
    "Quickly.Add.C40_history",
    "Quickly.Add.C40_any_order"
   ],
   "note": ""
  },
  {
   "property": "C41",
   "status": "proved",
   "theorems": [
    "Quickly.Space.C41_history",
    "Quickly.Space.C41_independent",
    "Quickly.Space.C41_no_memory"
   ],
   "note": ""
  },
  {
   "property": "C42",
   "status": "proved",
   "theorems": [
    "Quickly.Indent.C42_no_error",
    "Quickly.Indent.C42_lines",
    "Quickly.Indent.C42_first_line",
    "Quickly.Indent.C42_newline",
    "Quickly.Indent.C42_texts",
    "Quickly.Indent.C42_equals_write"
   ],
   "note": "Full; the output is also described exactly, line by line."
  },
  {
   "property": "C43",
   "status": "proved",
   "theorems": [
    "Quickly.Find.C43_pos_end",
    "Quickly.Find.C43_find_child",
    "Quickly.Find.C43_find_descendants",
    "Quickly.Find.C43_find_descendant",
    "Quickly.Find.C43_find_right",
    "Quickly.Find.C43_find_left"
   ],
   "note": "Full for trees with positions in document order."
  },
  {
   "property": "C44",
   "status": "proved",
   "theorems": [
    "Quickly.Str.C44_round_trip",
    "Quickly.Str.C44_write_read",
    "Quickly.Str.C44_tokenization",
    "Quickly.Str.C44_no_open_quote"
   ],
   "note": ""
  },
  {
   "property": "C45",
   "status": "proved",
   "theorems": [
    "Quickly.Mapping.C45_construct",
    "Quickly.Mapping.C45_read_write",
    "Quickly.Mapping.C45_write_read",
    "Quickly.Mapping.C45_other_text",
    "Quickly.Mapping.C45_tables",
    "Quickly.Mapping.C45_injective",
    "Quickly.Mapping.C45_head_mapping",
    "Quickly.Mapping.C45_head_mapping_unique",
    "Quickly.Mapping.C45_head_mapping_used",
    "Quickly.Mapping.C45_commands",
    "Quickly.Mapping.C45_numbers"
   ],
   "note": ""
  },
  {
   "property": "C46",
   "status": "partial",
   "theorems": [
    "Quickly.Rhythm.C46_getter_partial",
    "Quickly.Rhythm.C46_wrong"
   ],
   "note": "Partial: false when a durable without duration contains durations, as in c^\\markup \\score { d8 } e (C46_wrong); proved for all other music and all query histories."
  },
  {
   "property": "C47",
   "status": "proved",
   "theorems": [
    "Quickly.Rhythm.C47_explicit_keeps",
    "Quickly.Rhythm.C47_implicit_removes",
    "Quickly.Rhythm.C47_implicit_keeps",
    "Quickly.Rhythm.C47_per_line_keeps",
    "Quickly.Rhythm.C47_per_line_no_document",
    "Quickly.Rhythm.C47_explicit_all",
    "Quickly.Rhythm.C47_explicit_idempotent",
    "Quickly.Rhythm.C47_implicit_idempotent",
    "Quickly.Rhythm.C47_explicit_implicit",
    "Quickly.Rhythm.C47_explicit_inside_chord",
    "Quickly.Rhythm.C47_explicit_starts_inside"
   ],
   "note": "Full for music in which chord notes have no duration, and ranges that do not start inside a chord (C47_explicit_starts_inside); explicit() also adds durations to the notes inside chords (C47_explicit_inside_chord)."
  },
  {
   "property": "C48",
   "status": "proved",
   "theorems": [
    "Quickly.Rhythm.C48_copy",
    "Quickly.Rhythm.C48_paste",
    "Quickly.Rhythm.C48_paste_copy",
    "Quickly.Rhythm.C48_paste_copy_unreadable"
   ],
   "note": "Full; pasting a copy changes music that has a note without duration before an unpitched note, which cannot be read from text (C48_paste_copy_unreadable)."
  },
  {
   "property": "C49",
   "status": "proved",
   "theorems": [
    "Quickly.Rhythm.C49_remove",
    "Quickly.Rhythm.C49_implicit",
    "Quickly.Rhythm.C49_paste",
    "Quickly.Rhythm.C49_scaling"
   ],
   "note": "Full. What is between siblings (comments) is not modelled."
  },
  {
   "property": "C50",
   "status": "proved",
   "theorems": [
    "Quickly.Attr.C50_history",
    "Quickly.Attr.C50_getters",
    "Quickly.Attr.C50_set_duration",
    "Quickly.Attr.C50_set_scaling",
    "Quickly.Attr.C50_delete",
    "Quickly.Attr.C50_many_scalings",
    "Quickly.Attr.C50_set_many_scalings"
   ],
   "note": "Full; when a node has more than one DurationScaling child the setter removes only every second one (C50_many_scalings)."
  },
  {
   "property": "C51",
   "status": "proved",
   "theorems": [
    "Quickly.Attr.C51_independent",
    "Quickly.Attr.C51_order",
    "Quickly.Attr.C51_note_order",
    "Quickly.Attr.C51_others_stay",
    "Quickly.Attr.C51_octave_zero_keeps_child"
   ],
   "note": "Full; octave = 0 keeps an existing Octave child (C51_octave_zero_keeps_child)."
  },
  {
   "property": "C52",
   "status": "partial",
   "theorems": [
    "Quickly.Time.C52_length",
    "Quickly.Time.C52_sum_max",
    "Quickly.Time.C52_scale",
    "Quickly.Time.C52_scale_context",
    "Quickly.Time.C52_variables_partial",
    "Quickly.Time.C52_topmost",
    "Quickly.Time.C52_position",
    "Quickly.Time.C52_position_include",
    "Quickly.Time.C52_right_sibling",
    "Quickly.Time.C52_start_together",
    "Quickly.Time.C52_duration_partial",
    "Quickly.Time.C52_duration_wrong",
    "Quickly.Time.C52_after_grace_variable",
    "Quickly.Time.C52_undefined_variable"
   ],
   "note": "Partial: Time.duration applies a scale twice when the selection starts at the fraction of a tuplet (C52_duration_wrong), \\afterGrace with a variable has the length of the grace notes (C52_after_grace_variable), and an undefined variable raises TypeError (C52_undefined_variable). All else is proved, also with variables. Includes are not followed in the model; for these see C104."
  },
  {
   "property": "C53",
   "status": "partial",
   "theorems": [
    "Quickly.Scope.C53_urls",
    "Quickly.Scope.C53_include_distinct_partial",
    "Quickly.Scope.C53_chain_finite_partial",
    "Quickly.Scope.C53_lookup_ends_partial",
    "Quickly.Scope.C53_circular"
   ],
   "note": "Partial: proved when the factory gives documents with the url that was asked for; the default factory does not for file: urls, then circular includes never end (C53_circular). Looking for definitions through includes ends too."
  },
  {
   "property": "C54",
   "status": "partial",
   "theorems": [
    "Quickly.Assign.C54_name",
    "Quickly.Assign.C54_set",
    "Quickly.Assign.C54_unset",
    "Quickly.Assign.C54_get",
    "Quickly.Assign.C54_variables",
    "Quickly.Assign.C54_get_set_partial",
    "Quickly.Assign.C54_history_partial",
    "Quickly.Assign.C54_refused",
    "Quickly.Assign.C54_bool",
    "Quickly.Assign.C54_comment",
    "Quickly.Assign.C54_single_tuple",
    "Quickly.Assign.C54_twice",
    "Quickly.Assign.C54_get_plain",
    "Quickly.Assign.C54_get_node"
   ],
   "note": "Partial: proved for all histories with proper names, starting with a node in which every variable is assigned once. False for booleans (C54_bool), comments after the equal sign (C54_comment), a tuple with one part (C54_single_tuple) and variables that are assigned twice (C54_twice)."
  },
  {
   "property": "C55",
   "status": "partial",
   "theorems": [
    "Quickly.Group.C55_keeps_nodes",
    "Quickly.Group.C55_assignment",
    "Quickly.Group.C55_no_assignment",
    "Quickly.Group.C55_at_end",
    "Quickly.Group.C55_other",
    "Quickly.Group.C55_everywhere_partial",
    "Quickly.Group.C55_only",
    "Quickly.Group.C55_after_name",
    "Quickly.Group.C55_lyrics_keep",
    "Quickly.Group.C55_lyric_duration",
    "Quickly.Group.C55_lyric_alone",
    "Quickly.Group.C55_duration_alone",
    "Quickly.Group.C55_lyric_other",
    "Quickly.Group.C55_lyric_comment"
   ],
   "note": "Partial: all nodes are kept and all Assignments are of that form, but after another name the pattern is not recognized (C55_after_name), and a comment separates a syllable from its duration (C55_lyric_comment)."
  },
  {
   "property": "C56",
   "status": "partial",
   "theorems": [
    "Quickly.Relative.C56_fixed_partial",
    "Quickly.Relative.C56_fixed_wrong",
    "Quickly.Relative.C56_key"
   ],
   "note": "Partial: false when the name of the \\fixed pitch crosses c (C56_fixed_wrong)."
  },
  {
   "property": "C57",
   "status": "partial",
   "theorems": [
    "Quickly.Rhythm.C57_copy_explicit_partial",
    "Quickly.Rhythm.C57_after_skip"
   ],
   "note": "Partial: wrong after a \\skip (C57_after_skip); proved for all ranges without \\skip."
  },
  {
   "property": "C58",
   "status": "partial",
   "theorems": [
    "Quickly.Rhythm.C58_transform_partial",
    "Quickly.Rhythm.C58_initial_not_transformed"
   ],
   "note": "Partial: notes before the first written duration are not transformed (C58_initial_not_transformed)."
  },
  {
   "property": "C59",
   "status": "proved",
   "theorems": [
    "Quickly.Scope.C59_last_assignment",
    "Quickly.Scope.C59_ends"
   ],
   "note": "Full, for a factory that gives documents with the url that was asked for (see C53)."
  },
  {
   "property": "C60",
   "status": "partial",
   "theorems": [
    "Quickly.RangeEdit.C60_nodes",
    "Quickly.RangeEdit.C60_slices",
    "Quickly.RangeEdit.C60_behind",
    "Quickly.RangeEdit.C60_ahead_partial",
    "Quickly.RangeEdit.C60_beyond",
    "Quickly.RangeEdit.C60_before_start",
    "Quickly.RangeEdit.C60_boundaries_partial",
    "Quickly.RangeEdit.C60_start_node_partial",
    "Quickly.RangeEdit.C60_end_node_partial",
    "Quickly.RangeEdit.C60_start_replaced",
    "Quickly.RangeEdit.C60_end_replaced",
    "Quickly.RangeEdit.C60_set_item",
    "Quickly.RangeEdit.C60_set_item_keeps",
    "Quickly.RangeEdit.C60_set_item_boundary",
    "Quickly.RangeEdit.C60_emptied",
    "Quickly.RangeEdit.C60_current_skips",
    "Quickly.RangeEdit.C60_last_raises",
    "Quickly.RangeEdit.C60_del_minus_one",
    "Quickly.RangeEdit.C60_insert_in_empty"
   ],
   "note": "Partial: true for changes before or after the current node and for slices whose end is not before their begin. Replacing or deleting the current node skips the next one (C60_current_skips), deleting the last child makes iterating raise IndexError (C60_last_raises), replacing or deleting the end node of the range brings the next one into it (C60_end_replaced), del range[-1] does nothing (C60_del_minus_one), and nodes inserted in a node without children do not come (C60_insert_in_empty)."
  },
  {
   "property": "C61",
   "status": "proved",
   "theorems": [
    "Quickly.Query.C61_operators",
    "Quickly.Query.C61_not_implemented",
    "Quickly.Query.C61_partition",
    "Quickly.Query.C61_instances_of"
   ],
   "note": "Full; classes are a type with a subclass relation."
  },
  {
   "property": "C62",
   "status": "proved",
   "theorems": [
    "Quickly.Indent.C62_layout",
    "Quickly.Indent.C62_depth",
    "Quickly.Indent.C62_align_grandchild",
    "Quickly.Indent.C62_align_shifted",
    "Quickly.Indent.C62_not_enclosed"
   ],
   "note": "Full for elements that do not align; for those that align the layout is proved to be that of the reference semantics in Indent/Layout.lean, which differs from the property where a grandchild has the same index (C62_align_grandchild) and where a level was closed within the line (C62_align_shifted). Needs that indenting elements have a head and a tail (C62_not_enclosed), as all of quickly.dom have."
  },
  {
   "property": "C63",
   "status": "partial",
   "theorems": [
    "Quickly.Read.C63_no_token_twice",
    "Quickly.Read.C63_correct_partial",
    "Quickly.Read.C63_nothing_lost_partial",
    "Quickly.Read.C63_order_partial",
    "Quickly.Read.C63_comment_lost",
    "Quickly.Read.C63_tag_variable_lost",
    "Quickly.Read.C63_tweak_comment_lost",
    "Quickly.Read.C63_chord_modifier_fails",
    "Quickly.Read.C63_chord_comment_moved"
   ],
   "note": "Partial: proved for the grammar of correct music in Read/Grammar.lean, which leaves out some places for comments, and strings, variables and markup directly after a tag or tweak without a note before it. The losses are proved: C63_comment_lost, C63_tag_variable_lost, C63_tweak_comment_lost; order: C63_chord_comment_moved and comments before a duration. For all input, no token is used twice."
  },
  {
   "property": "C64",
   "status": "partial",
   "theorems": [
    "Quickly.Read.C64_markup_partial",
    "Quickly.Read.C64_markup_list",
    "Quickly.Read.C64_order",
    "Quickly.Read.C64_no_token_twice",
    "Quickly.Read.C64_comment_replaces"
   ],
   "note": "Partial: a comment directly after the markup command is taken for its argument (C64_comment_replaces); everything else proved for all expressions. The number of arguments of a command is a parameter."
  },
  {
   "property": "C65",
   "status": "partial",
   "theorems": [
    "Quickly.Language.C65_find_partial",
    "Quickly.Language.C65_follow_partial",
    "Quickly.Language.C65_agree",
    "Quickly.Language.C65_unknown_raises",
    "Quickly.Language.C65_include_raises"
   ],
   "note": "Partial: proved for documents where all languages are known and include has a file name, and where these nodes are not nested. Otherwise KeyError (C65_unknown_raises; the documentation says that only valid languages are followed) and AttributeError (C65_include_raises)."
  },
  {
   "property": "C66",
   "status": "partial",
   "theorems": [
    "Quickly.Language.C66_distill",
    "Quickly.Language.C66_order",
    "Quickly.Language.C66_written_partial",
    "Quickly.Language.C66_norsk_other_spelling",
    "Quickly.Language.C66_english_short",
    "Quickly.Language.C66_english_long_written",
    "Quickly.Language.C66_catalan_nothing"
   ],
   "note": "Partial: the first two parts are full, for all tables. The third is proved for nederlands, deutsch, suomi and espanol (C66_written_partial); it is false for norsk (C66_norsk_other_spelling), english (C66_english_short, C66_english_long_written) and catalan (C66_catalan_nothing)."
  },
  {
   "property": "C67",
   "status": "partial",
   "theorems": [
    "Quickly.Scheme.Read.C67_read_partial",
    "Quickly.Scheme.Read.C67_scheme",
    "Quickly.Scheme.Read.C67_order",
    "Quickly.Scheme.Read.C67_comment_quoted",
    "Quickly.Scheme.Read.C67_quote_lost",
    "Quickly.Scheme.Read.C67_scheme_comment"
   ],
   "note": "Partial: proved for all expressions (grammar in Scheme/Read.lean); for all input no token is used twice. A comment between a quote and its datum is quoted instead of the datum (C67_comment_quoted), a quote before a closing parenthesis is lost (C67_quote_lost), and a comment directly after the hash sign replaces the expression (C67_scheme_comment)."
  },
  {
   "property": "C68",
   "status": "partial",
   "theorems": [
    "Quickly.Scheme.C68_exact_partial",
    "Quickly.Scheme.C68_injective",
    "Quickly.Scheme.C68_float",
    "Quickly.Scheme.C68_float_truncated",
    "Quickly.Scheme.C68_other_nan"
   ],
   "note": "Partial: proved for all whole numbers and fractions in every radix, against an independent reader. A float in another radix loses its fraction (C68_float_truncated, which says exactly when it is right), and a nan other than math.nan is written as a symbol or raises (C68_other_nan). How Python writes a decimal float is a parameter."
  },
  {
   "property": "C69",
   "status": "proved",
   "theorems": [
    "Quickly.Scheme.C69_value",
    "Quickly.Scheme.C69_unique",
    "Quickly.Scheme.C69_single_tuple",
    "Quickly.Scheme.C69_empty_tuple"
   ],
   "note": "Full for these values, against an independent Scheme reader. Floats are not in the type of values; how Python writes them is a parameter in C68. Tuples of one or no value: C69_single_tuple, C69_empty_tuple."
  },
  {
   "property": "C70",
   "status": "partial",
   "theorems": [
    "Quickly.Cursor.C70_selection_partial",
    "Quickly.Cursor.C70_no_selection",
    "Quickly.Cursor.C70_from_cursor_partial",
    "Quickly.Cursor.C70_last_chord",
    "Quickly.Cursor.C70_one_note",
    "Quickly.Cursor.C70_blank",
    "Quickly.Cursor.C70_begin",
    "Quickly.Cursor.C70_end",
    "Quickly.Cursor.C70_past_end",
    "Quickly.Cursor.C70_cursor_at_end"
   ],
   "note": "Partial: proved which nodes are visited for every selection with nodes in it that does not begin inside a node and end past it and that is not one single node. Otherwise false: the nodes inside the last selected node are not visited (C70_last_chord), nothing is visited when one node is selected (C70_one_note), a blank selects the next node (C70_blank), a selection before the end of the first node selects the whole document (C70_begin), a selection after the last node everything before it (C70_end), a selection from inside a block past its end only its first node (C70_past_end), and range_from_cursor at the end the whole document (C70_cursor_at_end)."
  },
  {
   "property": "C71",
   "status": "partial",
   "theorems": [
    "Quickly.Wishes.C71_write",
    "Quickly.Wishes.C71_indented",
    "Quickly.Wishes.C71_comment",
    "Quickly.Wishes.C71_edit_partial",
    "Quickly.Wishes.C71_edit_apart",
    "Quickly.Wishes.C71_edit_comment_hides"
   ],
   "note": "Partial: full for write() and write_indented(). For edit() the whitespace meets the wishes or is the whitespace that was in the document (C71_edit_partial), never absent where some is asked for (C71_edit_apart); that does not suffice when a new single-line comment is inserted before an existing node on the same line, which hides the rest of the line (C71_edit_comment_hides)."
  },
  {
   "property": "C72",
   "status": "partial",
   "theorems": [
    "Quickly.Newlines.C72_missing_tail_raises",
    "Quickly.Newlines.C72_succeeds_partial",
    "Quickly.Newlines.C72_set",
    "Quickly.Newlines.C72_write",
    "Quickly.Newlines.C72_indented",
    "Quickly.Newlines.C72_exact_partial",
    "Quickly.Newlines.C72_twice",
    "Quickly.Newlines.C72_multiline_token"
   ],
   "note": "Partial: what is set is proved for all documents, and that the newlines are written, by write() and write_indented(); C72_exact_partial: exactly these newlines, if elements do not ask for newlines by themselves. A document where a closing bracket is missing raises IndexError (C72_missing_tail_raises), and newlines inside a token count for the next one, so that a note on the line where a comment ends is put on a new line (C72_multiline_token)."
  },
  {
   "property": "C73",
   "status": "partial",
   "theorems": [
    "Quickly.Layout.C73_before",
    "Quickly.Layout.C73_after",
    "Quickly.Layout.C73_between",
    "Quickly.Layout.C73_write_before_partial",
    "Quickly.Layout.C73_write_after_partial",
    "Quickly.Layout.C73_write_ignores_newline",
    "Quickly.Layout.C73_write_ignores_before"
   ],
   "note": "Full for write_indented(). For write() the property is false for elements without text: C73_write_ignores_newline (Newline() and BlankLine() make no difference at all) and C73_write_ignores_before. It holds for elements with a text of their own (C73_write_before_partial) and for the end of elements whose last child writes something (C73_write_after_partial)."
  },
  {
   "property": "C74",
   "status": "partial",
   "theorems": [
    "Quickly.Unknown.C74_none_left",
    "Quickly.Unknown.C74_others",
    "Quickly.Unknown.C74_replaced",
    "Quickly.Unknown.C74_write_raises",
    "Quickly.Unknown.C74_write_partial",
    "Quickly.Unknown.C74_edit_partial",
    "Quickly.Unknown.C74_root_stays",
    "Quickly.Unknown.C74_copy_whole_text"
   ],
   "note": "Partial: holds for descendants that have their origin. False for the node itself, which is not replaced (C74_root_stays), and for copies, which have no origin: every region then becomes the whole source text (C74_copy_whole_text)."
  },
  {
   "property": "C75",
   "status": "proved",
   "theorems": [
    "Quickly.Html.C75_write",
    "Quickly.Html.C75_injective",
    "Quickly.Html.C75_plaintext",
    "Quickly.Html.C75_resolver_ignored",
    "Quickly.Html.C75_cdata",
    "Quickly.Html.C75_words",
    "Quickly.Html.C75_quoted"
   ],
   "note": "C75_write: the constructor and write() give the Html of the specification. C75_injective: two different pieces of Html (names well formed, texts not cut up) are never written the same. C75_quoted: strings keep their quotes. C75_plaintext: to_plaintext() gives the texts back. Where the code differs from what one expects: C75_resolver_ignored (the entity resolver is not passed on to elements inside the element) and C75_cdata (CData writes `<[CDATA[` instead of `<![CDATA[`, and is not part of the plain text)."
  },
  {
   "property": "C76",
   "status": "partial",
   "theorems": [
    "Quickly.Html.C76_edit_partial",
    "Quickly.Html.C76_comments_deleted",
    "Quickly.Html.C76_lone_quote",
    "Quickly.Html.C76_read"
   ],
   "note": "C76_read: the tree that is read is the tree of the specification, for every document of the grammar. C76_edit_partial: without comments, edit() of the unmodified tree removes nothing and only inserts whitespace where there was none. The property does not hold for comments, CDATA sections and processing instructions: they are read, but then dropped, and C76_comments_deleted proves that edit() deletes every token of them. C76_lone_quote: a lone quote at the end of the document is head and tail of its string."
  },
  {
   "property": "C77",
   "status": "proved",
   "theorems": [
    "Quickly.Spanner.C77_nearest",
    "Quickly.Spanner.C77_limit",
    "Quickly.Spanner.C77_from_other_end",
    "Quickly.Spanner.C77_looks_into_other_context",
    "Quickly.Spanner.C77_two_starts"
   ],
   "note": "Spanners are assumed to have no child nodes, and to come after the id in a SpannerId (Leaves, Ids: what the reader builds); limit is not negative. Findings: a search looks into other \\new nodes that are inside the scope, so the found spanner need not find the first one (C77_looks_into_other_context), and of two starts both find the same stop (C77_two_starts)."
  },
  {
   "property": "C78",
   "status": "partial",
   "theorems": [
    "Quickly.Heads.C78_index_error",
    "Quickly.Heads.C78_read_written_partial",
    "Quickly.Heads.C78_valid",
    "Quickly.Heads.C78_source_kept_partial",
    "Quickly.Heads.C78_scheme_block_comment",
    "Quickly.Heads.C78_accepted_not_valid"
   ],
   "note": "False of the code for the Scheme block comment: Guile closes it with !#, the code looks for #!, so the !# becomes part of the value and #! is written behind it (proved for all of them). The constructor accepts comments that are written as something else (text beginning with a brace, newlines, %} inside). Both are proved. C78_index_error says when reading raises IndexError."
  },
  {
   "property": "C79",
   "status": "proved",
   "theorems": [
    "Quickly.Tex.C79_newlines",
    "Quickly.Tex.C79_newlines_nontrivial",
    "Quickly.Tex.C79_open_brace",
    "Quickly.Tex.C79_read",
    "Quickly.Tex.C79_tokens",
    "Quickly.Tex.C79_edit",
    "Quickly.Tex.C79_comment_newline",
    "Quickly.Tex.C79_open_bracket",
    "Quickly.Tex.C79_open_option",
    "Quickly.Tex.C79_open_lilypond",
    "Quickly.Tex.C79_begin_taken_for_end"
   ],
   "note": "C79_read and C79_tokens hold for all documents of the grammar, C79_edit and C79_newlines for those of it in which nothing is left open; C79_newlines for LilyPond music of one node each. A brace that is left open is closed by edit() (C79_open_brace). Defects that are proved: a comment directly followed by text that begins with the newline gets one more newline on every edit() (C79_comment_newline); of an option that is not closed the [ is lost and edit() raises IndexError (C79_open_option); \\begin{lilypond}[options] at the end of the text raises IndexError (C79_open_lilypond); the start of an unfinished environment in another one is taken for its end (C79_begin_taken_for_end). Text between two options is dropped and is not in the grammar. A second argument in braces is not a child of the command but its sibling."
  },
  {
   "property": "C80",
   "status": "proved",
   "theorems": [
    "Quickly.Markup.C80_means",
    "Quickly.Markup.C80_unique",
    "Quickly.Markup.C80_evaluates",
    "Quickly.Markup.C80_undefined",
    "Quickly.Markup.C80_five_arguments",
    "Quickly.Markup.C80_as_is",
    "Quickly.Markup.C80_with_link",
    "Quickly.Markup.C80_main"
   ],
   "note": "C80_means holds for all expressions (exact numbers; floats are not in it), for any table of commands that agrees with LilyPond on the commands with a function of their own; the regular expression for words is a parameter, with the condition that what it accepts is a word. Defects that are proved: with_link makes \\with-color (C80_with_link), fret_diagram, fret_diagram_terse, fret_diagram_verbose and woodwind_diagram raise NameError (C80_undefined). score and score_lines (which contain music) are not in it."
  },
  {
   "property": "C81",
   "status": "partial",
   "theorems": [
    "Quickly.Lily.C81_no_token_twice",
    "Quickly.Lily.C81_read_partial",
    "Quickly.Lily.C81_nothing_lost_partial",
    "Quickly.Lily.C81_order_partial",
    "Quickly.Lily.C81_score_brace_lost_partial",
    "Quickly.Lily.C81_figure_comment",
    "Quickly.Lily.C81_duration_comment_lost"
   ],
   "note": "C81_no_token_twice holds for every text for which the methods do not raise. C81_read_partial, C81_nothing_lost_partial and C81_order_partial are for texts of a grammar: the music in a context is correct in the sense of C63, and only tokens with a meaning are where the methods drop unknown tokens. Contexts inside the head of a block, and Scheme, are given. Defects that are proved: the closing brace of a score is lost (C81_score_brace_lost_partial), an alteration after a comment in a figure becomes a child of the comment (C81_figure_comment), a comment between the dots of a duration is lost (C81_duration_comment_lost)."
  },
  {
   "property": "C82",
   "status": "proved",
   "theorems": [
    "Quickly.Build.C82_nesting",
    "Quickly.Build.C82_unique",
    "Quickly.Build.C82_always"
   ],
   "note": "C82_nesting, C82_unique and C82_always together: there is exactly one list of proper expressions for every input, and build_tree makes it. The signatures are given for every node; they have at least one entry each (all signatures in the source do). A class whose signatures() yields nothing for a node takes a comment after it; that is in the model."
  },
  {
   "property": "C83",
   "status": "partial",
   "theorems": [
    "Quickly.Signature.C83_relative_tag",
    "Quickly.Signature.C83_confused",
    "Quickly.Signature.C83_confuses",
    "Quickly.Signature.C83_takes_partial",
    "Quickly.Signature.C83_refused",
    "Quickly.Signature.C83_only",
    "Quickly.Signature.C83_accepts",
    "Quickly.Signature.C83_subclass",
    "Quickly.Signature.C83_text_partial"
   ],
   "note": "C83_accepts is exact for all classes but base classes and elements that are only made inside others (the list inner). The forms are our reading of LilyPond's manual and part of the specification; Scheme as an argument is only in it where the manual writes it, and for music. C83_takes_partial and C83_text_partial are partial because of the exceptions, which C83_refused proves to be exceptions. Defects that are proved: the music of \\relative c' \\tag #'x {...} is outside of the \\relative (C83_relative_tag, the same for any command that takes music and any element of the list commands2); in \\relative c4 the only note becomes the start pitch, \\mark 4 has a length, single lengths as music in \\tuplet and \\scaleDurations become a Duration or Int (C83_confused)."
  },
  {
   "property": "C84",
   "status": "proved",
   "theorems": [
    "Quickly.TimeCursor.C84_position",
    "Quickly.TimeCursor.C84_selection",
    "Quickly.TimeCursor.C84_end_of_text",
    "Quickly.TimeCursor.C84_in_chord",
    "Quickly.TimeCursor.C84_outside",
    "Quickly.TimeCursor.C84_none",
    "Quickly.TimeCursor.C84_after_last",
    "Quickly.TimeCursor.C84_part_of_note"
   ],
   "note": "C84_position and C84_selection hold for all music lists outside chords; inside a chord the moment is that of the chord (C84_in_chord), outside of music the result is None (C84_outside). Defects that are proved: after everything in the text cursor_position raises TypeError (C84_end_of_text); after the last item of a list the position is that of the next expression (C84_after_last); a selection that ends between the articulations of a note does not count the note (C84_part_of_note). Parce's Cursor is given by its positions."
  },
  {
   "property": "C85",
   "status": "partial",
   "theorems": [
    "Quickly.Access.C85_numbers",
    "Quickly.Access.C85_string_get",
    "Quickly.Access.C85_string_set",
    "Quickly.Access.C85_version",
    "Quickly.Access.C85_include_language",
    "Quickly.Access.C85_include_raises",
    "Quickly.Access.C85_document_get",
    "Quickly.Access.C85_document_none",
    "Quickly.Access.C85_document_set",
    "Quickly.Access.C85_document_insert",
    "Quickly.Access.C85_document_total",
    "Quickly.Access.C85_first_pitch",
    "Quickly.Access.C85_attribute_partial",
    "Quickly.Access.C85_attribute_none"
   ],
   "note": "C85_numbers says for every text what its numbers are; which characters are decimal digits and their values is a parameter (ASCII digits have their value, the dot is none). Python's limit of 4300 digits is not modelled. C85_attribute_partial is partial because a boolean can be set but not read back (C54_bool). Defect that is proved: Include.language raises AttributeError if there is no file name (C85_include_raises)."
  },
  {
   "property": "C86",
   "status": "proved",
   "theorems": [
    "Quickly.Access.C86_name",
    "Quickly.Access.C86_refers",
    "Quickly.Access.C86_with_name",
    "Quickly.Access.C86_value",
    "Quickly.Access.C86_wait"
   ],
   "note": "Defects that are proved: IdentifierRef.with_name raises TypeError for every name (C86_with_name), and Reference.get_value does not use its argument wait: it waits (C86_wait). is_symbol is a parameter with the condition that the empty text is no symbol. C86_value uses the model of C59, with names that are strings."
  },
  {
   "property": "C87",
   "status": "partial",
   "theorems": [
    "Quickly.Length.C87_length_nontrivial_tuplet",
    "Quickly.Length.C87_length_nontrivial_shift",
    "Quickly.Length.C87_drum_chord",
    "Quickly.Length.C87_repeat_once",
    "Quickly.Length.C87_alternatives",
    "Quickly.Length.C87_mark",
    "Quickly.Length.C87_tag",
    "Quickly.Length.C87_length_partial"
   ],
   "note": "C87_length_partial is partial because it says nothing of \\repeat other than volta, alternatives, drum chords and figured bass, \\afterGrace with a variable (C52), \\tag and other commands that are not Music, negative numbers of dots, and variables in include files (C104). Defects that are proved: C87_drum_chord, C87_repeat_once, C87_alternatives, C87_mark, C87_tag (music in \\tag, \\keepWithTag, \\applyMusic and others of that kind has length 0). Which classes are played is a table in the specification; the class hierarchy is not used in it. Trees that the parser makes are not characterised here: see C81 and C83."
  },
  {
   "property": "C88",
   "status": "proved",
   "theorems": [
    "Quickly.EditSel.C88_selection_nontrivial",
    "Quickly.EditSel.C88_inserts_outside",
    "Quickly.EditSel.C88_selection",
    "Quickly.EditSel.C88_readonly",
    "Quickly.EditSel.C88_no_changes",
    "Quickly.EditSel.C88_document",
    "Quickly.EditSel.C88_raises"
   ],
   "note": "The range that is given to edit_range is that of C70; edit_range is a parameter. Whitespace is inserted also outside the selection, even if the edit changes nothing (C88_inserts_outside). Nodes outside the ancestor of the range, which edit_range could change too, are not written back and not modelled."
  },
  {
   "property": "C89",
   "status": "partial",
   "theorems": [
    "Quickly.PitchTime.C89_ends",
    "Quickly.PitchTime.C89_selection",
    "Quickly.Rel2abs.C89_rest_stays_partial",
    "Quickly.Rel2abs.C89_every_tree",
    "Quickly.Rel2abs.C89_outside_selection",
    "Quickly.Rel2abs.C89_comment_lost"
   ],
   "note": "Partial: the same restrictions as for C25_document_partial. False for selections: \\relative music outside the selection is converted too (C89_outside_selection); comments between \\relative and its music are lost (C89_comment_lost). C89_ends: the edit comes to an end for all documents, languages and selections, with one result or one exception. C89_selection holds for all of them where there is no exception; it says what can be changed or taken away, but not where. C89_every_tree shows that the hypotheses on the nodes in memory can be met for every tree."
  },
  {
   "property": "C90",
   "status": "partial",
   "theorems": [
    "Quickly.TransposeDoc.C90_only_pitches",
    "Quickly.TransposeDoc.C90_nothing_selected",
    "Quickly.TransposeDoc.C90_succeeds",
    "Quickly.TransposeDoc.C90_sounds_partial",
    "Quickly.TransposeDoc.C90_comment_in_transpose",
    "Quickly.TransposeDoc.C90_inside_relative"
   ],
   "note": "What is changed and when it succeeds is proved for all documents and selections; what is heard (C90_sounds_partial) for documents without odd nodes in chords and comments in \\transpose, with the restrictions of C24_transposes_partial. False for a comment among the pitches of \\transpose (C90_comment_in_transpose) and for a selection inside \\relative, which is read as absolute music (C90_inside_relative). C24_document shows that the document and the music of C24 are transposed alike."
  },
  {
   "property": "C91",
   "status": "partial",
   "theorems": [
    "Quickly.Abs2rel.C91_edited",
    "Quickly.Abs2rel.C91_again",
    "Quickly.Abs2rel.C91_sounds_partial",
    "Quickly.Abs2rel.C91_list_itself",
    "Quickly.Abs2rel.C91_language",
    "Quickly.Abs2rel.C91_start_language",
    "Quickly.Abs2rel.C91_chordmode_selected",
    "Quickly.Abs2rel.C91_inside_relative",
    "Quickly.Abs2rel.C91_range_partial",
    "Quickly.Abs2rel.C91_range_nontrivial"
   ],
   "note": "What is changed (C91_edited) is proved for all ranges of all documents, and that the second time nothing changes (C91_again) for whole documents. What is heard is proved for whole documents (C91_sounds_partial), and for all ranges with the document around them (C91_range_partial), with restrictions: no chords, octave checks, \\relative and \\chordmode in a list that is converted (as in C25), nothing to convert in \\fixed, and \\language only after the first note of a converted list. Defects that are proved: a \\language outside the lists is not seen (C91_language), a start pitch in the wrong language (C91_start_language), \\chordmode is converted when a part is selected (C91_chordmode_selected), a selection inside \\relative is read as absolute music (C91_inside_relative)."
  },
  {
   "property": "C92",
   "status": "proved",
   "theorems": [
    "Quickly.TransposeBack.C92_back",
    "Quickly.TransposeBack.C92_undone",
    "Quickly.TransposeBack.C92_swapped",
    "Quickly.TransposeBack.C92_respelled",
    "Quickly.TransposeBack.C92_other_name",
    "Quickly.TransposeBack.C92_octave_check"
   ],
   "note": "The model is that of C90. C92_back is for any two transposers that undo each other for the selected notes, C92_swapped for transposers between two pitches, where a note must not be respelled. What the conditions exclude does fail: a respelled note (C92_respelled), a note with another name than quickly gives it (C92_other_name), an octave check in \\relative with a start pitch (C92_octave_check)."
  },
  {
   "property": "C93",
   "status": "proved",
   "theorems": [
    "Quickly.RhythmTime.C93_explicit",
    "Quickly.RhythmTime.C93_implicit",
    "Quickly.RhythmTime.C93_implicit_per_line",
    "Quickly.RhythmTime.C93_starts_inside"
   ],
   "note": "The nodes are those of C87, with the Duration as a child of the note; a range is an interval of the nodes that can have a duration. False for explicit with a range that starts inside a chord (C93_starts_inside)."
  },
  {
   "property": "C94",
   "status": "proved",
   "theorems": [
    "Quickly.RhythmTime.C94_scale",
    "Quickly.RhythmTime.C94_shift",
    "Quickly.RhythmTime.C94_default_duration",
    "Quickly.RhythmTime.C94_shift_durations"
   ],
   "note": "The shift needs durations that can be written, before and after. What the conditions exclude does fail: a first note without a duration keeps the default one (C94_default_duration), with \\shiftDurations a length can become an exception (C94_shift_durations)."
  },
  {
   "property": "C95",
   "status": "partial",
   "theorems": [
    "Quickly.Copy.C95_copy_node",
    "Quickly.Copy.C95_copy_node_with_origin",
    "Quickly.Copy.C95_origin_from",
    "Quickly.Copy.C95_origin_from_modified",
    "Quickly.Copy.C95_tail_unmodified",
    "Quickly.Copy.C95_set_head",
    "Quickly.Copy.C95_copy_text_partial",
    "Quickly.Copy.C95_copy_exact",
    "Quickly.Copy.C95_copy_is_new",
    "Quickly.Copy.C95_copy_edits_partial",
    "Quickly.Copy.C95_copy_edits_exact",
    "Quickly.Copy.C95_shape",
    "Quickly.Copy.C95_spacing_lost"
   ],
   "note": "False for elements of which a spacing attribute differs from that of the class: copies lose it, because the code reads an attribute _spacing that does not exist (C95_spacing_lost; C95_copy_exact and C95_copy_edits_exact say what is written then). Head values are those that the constructor leaves to be written in the same way."
  },
  {
   "property": "C96",
   "status": "proved",
   "theorems": [
    "Quickly.Dump.C96_eval",
    "Quickly.Dump.C96_not_last",
    "Quickly.Dump.C96_lines"
   ],
   "note": "Python is a small reader of calls with positional arguments in Dump/Spec.lean; class names and head values are parameters. The code for a node that is not the last child of its parent ends with a comma (C96_not_last)."
  },
  {
   "property": "C97",
   "status": "proved",
   "theorems": [
    "Quickly.TransposeKey.C97_same_accidental",
    "Quickly.TransposeKey.C97_in_key",
    "Quickly.TransposeKey.C97_respelled_leaves_key",
    "Quickly.TransposeKey.C97_names",
    "Quickly.TransposeKey.C97_document"
   ],
   "note": "Documents as for C90, `Clear` (pitches in front of \\relative and so on have nothing in them). A key with a triple sharp is not kept, notes in it are respelled (C97_respelled_leaves_key)."
  },
  {
   "property": "C98",
   "status": "partial",
   "theorems": [
    "Quickly.TransposeKey.C98_pitch_mode_partial",
    "Quickly.TransposeKey.C98_pitch_list_partial",
    "Quickly.TransposeKey.C98_variable",
    "Quickly.TransposeKey.C98_undefined",
    "Quickly.TransposeKey.C98_pairs",
    "Quickly.TransposeKey.C98_transposed"
   ],
   "note": "False for a mode that is a variable: the code swaps the value and the scope, and the result is None (C98_variable), or TypeError if it is not defined (C98_undefined). A list of pairs as LilyPond has it gives a signature of two accidentals (C98_pairs)."
  },
  {
   "property": "C99",
   "status": "proved",
   "theorems": [
    "Quickly.RhythmEdits.C99_place",
    "Quickly.RhythmEdits.C99_only_durations",
    "Quickly.RhythmEdits.C99_outside",
    "Quickly.RhythmEdits.C99_copy"
   ],
   "note": "The edits run on document nodes of the 200 classes of Verif.Signature, as in C93; a range is an interval of the numbers of the nodes that can have a duration."
  },
  {
   "property": "C100",
   "status": "proved",
   "theorems": [
    "Quickly.RhythmEdits.C100_refines",
    "Quickly.RhythmEdits.C100_results",
    "Quickly.RhythmEdits.C100_values",
    "Quickly.RhythmEdits.C100_paste_copy"
   ],
   "note": "C100_refines is a simulation between the edits of Verif.RhythmEdits (document nodes) and those of Verif.Rhythm (labels), for which C47, C48, C49, C57 and C58 are stated. A Duration may not follow a durable as its sibling; it is a child of the node it belongs to."
  },
  {
   "property": "C101",
   "status": "proved",
   "theorems": [
    "Quickly.RhythmEdits.C101_orderly",
    "Quickly.RhythmEdits.C101_sequence",
    "Quickly.RhythmEdits.C101_explicit_twice",
    "Quickly.RhythmEdits.C101_implicit_twice",
    "Quickly.RhythmEdits.C101_explicit_implicit"
   ],
   "note": "C101_orderly and C101_sequence are for all edits; the statements about two edits follow from C47 by C100. Nodes of the abstract class Durable are excluded (they cannot be written)."
  },
  {
   "property": "C102",
   "status": "proved",
   "theorems": [
    "Quickly.RangeWalk.C102_walk",
    "Quickly.RangeWalk.C102_walk_entered",
    "Quickly.RangeWalk.C102_descendants",
    "Quickly.RangeWalk.C102_children",
    "Quickly.RangeWalk.C102_operators",
    "Quickly.RangeWalk.C102_operators_entered",
    "Quickly.RangeWalk.C102_somewhere",
    "Quickly.RangeWalk.C102_own_ancestor"
   ],
   "note": "upto must be an ancestor of the current node, as documented. C102_own_ancestor: after enter(), ancestors() (and <<) yields the current node as its own first ancestor."
  },
  {
   "property": "C103",
   "status": "proved",
   "theorems": [
    "Quickly.DumpTree.C103_lines",
    "Quickly.DumpTree.C103_styles",
    "Quickly.DumpTree.C103_readable"
   ],
   "note": "repr() is any function of the node and what is below it; an Assignment to a quoted name with a newline is shown in two lines, and is not covered by C103_readable."
  },
  {
   "property": "C104",
   "status": "partial",
   "theorems": [
    "Quickly.Files.C104_length_nontrivial",
    "Quickly.Files.C104_include_duration",
    "Quickly.Files.C104_error_nontrivial",
    "Quickly.Files.C104_include_duration_nontrivial",
    "Quickly.Files.C104_variables_partial",
    "Quickly.Files.C104_error",
    "Quickly.Files.C104_as_text_partial",
    "Quickly.Files.C104_length_partial"
   ],
   "note": "C104_variables_partial, C104_as_text_partial and C104_length_partial are partial because the current duration is not kept across an \\include, which is a defect: previous_duration() looks in the same document only (C104_include_duration). C104_length_partial also misses what C87 misses. The files exist, and are those of the Scope model: the include path is the same for all scopes."
  },
  {
   "property": "C105",
   "status": "partial",
   "theorems": [
    "Quickly.RoundTrip.C105_back_partial",
    "Quickly.RoundTrip.C105_back_nontrivial",
    "Quickly.RoundTrip.C105_chord"
   ],
   "note": "C105_back_partial is partial because of what the two conversions do not have in common: abs2rel leaves chords as they are and rel2abs does not (C105_chord), and rel2abs removes \\octaveCheck. The specification does not tell music lists from other nodes that are neither notes nor one of the commands."
  },
  {
   "property": "C106",
   "status": "proved",
   "theorems": [
    "Quickly.PitchTime.C106_transpose",
    "Quickly.PitchTime.C106_rel2abs",
    "Quickly.PitchTime.C106_abs2rel",
    "Quickly.PitchTime.C106_simultaneous"
   ],
   "note": "C106_rel2abs is for edits that come to an end without an exception, on documents where every \\relative has its music (ShapeL). The pitch edits and Time are modelled on two views of a document; View and nd say how the second view comes from the first, for any classes, heads and octave nodes that fit (Fits). C106_simultaneous shows where it fails for Abs2rel."
  },
  {
   "property": "C107",
   "status": "proved",
   "theorems": [
    "Quickly.TransposeTwice.C107_twice",
    "Quickly.TransposeTwice.C107_intervals",
    "Quickly.TransposeTwice.C107_chain",
    "Quickly.TransposeTwice.C107_respelled",
    "Quickly.TransposeTwice.C107_octave_check"
   ],
   "note": "C107_respelled and C107_octave_check show where it fails."
  },
  {
   "property": "C108",
   "status": "proved",
   "theorems": [
    "Quickly.TransposeAbs.C108_either_order",
    "Quickly.TransposeAbs.C108_octave_check",
    "Quickly.TransposeAbs.C108_transpose_in_relative",
    "Quickly.TransposeAbs.C108_relative_in_fixed",
    "Quickly.TransposeAbs.C108_selection"
   ],
   "note": "C108_octave_check, C108_transpose_in_relative, C108_relative_in_fixed and C108_selection show where the order matters."
  },
  {
   "property": "C109",
   "status": "partial",
   "theorems": [
    "Quickly.TransposeTrip.C109_relative_and_back_partial",
    "Quickly.TransposeTrip.C109_octave_check"
   ],
   "note": "Partial because of what the commands do with chords (C105_chord), octave checks (C109_octave_check) and \\transpose (C108_transpose_in_relative); missing is also more than one pitch language."
  },
  {
   "property": "C110",
   "status": "proved",
   "theorems": [
    "Quickly.TransposeRel.C110_either_order",
    "Quickly.TransposeRel.C110_transposed",
    "Quickly.TransposeRel.C110_start_pitch",
    "Quickly.TransposeRel.C110_chord"
   ],
   "note": "C110_start_pitch and C110_chord show where the order matters; C109_octave_check and C108_transpose_in_relative have the commands that make it matter for octave checks and \\transpose."
  },
  {
   "property": "C111",
   "status": "proved",
   "theorems": [
    "Quickly.RhythmPitch.C111_edit",
    "Quickly.RhythmPitch.C111_results",
    "Quickly.RhythmPitch.C111_transposed"
   ],
   "note": "bare is the document without its pitches, Plain says that no note has a child that can have a duration. The ranges are numbers of nodes that can have a duration, so they name the same nodes in both documents. With C99, which says that everything but the durations stays, this determines the result."
  },
  {
   "property": "C112",
   "status": "proved",
   "theorems": [
    "Quickly.RhythmParts.C112_parts",
    "Quickly.RhythmParts.C112_order",
    "Quickly.RhythmParts.C112_again",
    "Quickly.RhythmParts.C112_implicit_parts",
    "Quickly.RhythmParts.C112_transform"
   ],
   "note": "The durations are compared (values), not the nodes inside them; by C99 everything else stays. The ranges are numbers of nodes that can have a duration. C112_implicit_parts shows that implicit() does depend on how the range is divided; C112_transform is for transform() when no exception is raised; explicit() and paste() are not treated here."
  },
  {
   "property": "C113",
   "status": "proved",
   "theorems": [
    "Quickly.RhythmTwice.C113_nothing",
    "Quickly.RhythmTwice.C113_back",
    "Quickly.RhythmTwice.C113_twice",
    "Quickly.RhythmTwice.C113_order",
    "Quickly.RhythmTwice.C113_cut_off"
   ],
   "note": "Fits says that a duration can be written and that the first Transform cuts off no dots. The durations are compared; by C99 everything else stays. C113_cut_off shows that the condition is needed. Nothing is said when one of the transforms raises an exception."
  }
 ]
}