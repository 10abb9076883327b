{
"Quickly.Abs2rel.C91_again": [
"Classical.choice",
"Quot.sound",
"propext"
],
"Quickly.Abs2rel.C91_chordmode_selected": [
"Classical.choice",
"Quot.sound",
"propext"
],
"Quickly.Abs2rel.C91_edited": [
"Classical.choice",
"Quot.sound",
"propext"
],
"Quickly.Abs2rel.C91_inside_relative": [
"Classical.choice",
"Quot.sound",
"propext"
],
"Quickly.Abs2rel.C91_language": [
"Classical.choice",
"Quot.sound",
"propext"
],
"Quickly.Abs2rel.C91_list_itself": [
"Classical.choice",
"Quot.sound",
"propext"
],
"Quickly.Abs2rel.C91_range_nontrivial": [
"Classical.choice",
"Quot.sound",
"propext"
],
"Quickly.Abs2rel.C91_range_partial": [
"Classical.choice",
"Quot.sound",
"propext"
],
"Quickly.Abs2rel.C91_sounds_partial": [
"Classical.choice",
"Quot.sound",
"propext"
],
"Quickly.Abs2rel.C91_start_language": [
"Classical.choice",
"Quot.sound",
"propext"
],
"Quickly.Access.C85_attribute_none": [
"Classical.choice",
"Quot.sound",
"propext"
],
"Quickly.Access.C85_attribute_partial": [
"Classical.choice",
"Quot.sound",
"propext"
],
"Quickly.Access.C85_document_get": [
"Classical.choice",
"Quot.sound",
"propext"
],
"Quickly.Access.C85_document_insert": [
"Classical.choice",
"Quot.sound",
"propext"
],
"Quickly.Access.C85_document_none": [
"Classical.choice",
"Quot.sound",
"propext"
],
"Quickly.Access.C85_document_set": [
"Classical.choice",
"Quot.sound",
"propext"
],
"Quickly.Access.C85_document_total": [
"Classical.choice",
"Quot.sound",
"propext"
],
"Quickly.Access.C85_first_pitch": [
"Classical.choice",
"Quot.sound",
"propext"
],
"Quickly.Access.C85_include_language": [
"Classical.choice",
"Quot.sound",
"propext"
],
"Quickly.Access.C85_include_raises": [
"Classical.choice",
"Quot.sound",
"propext"
],
"Quickly.Access.C85_numbers": [
"Quot.sound",
"propext"
],
"Quickly.Access.C85_string_get": [
"Classical.choice",
"Quot.sound",
"propext"
],
"Quickly.Access.C85_string_set": [
"Classical.choice",
"Quot.sound",
"propext"
],
"Quickly.Access.C85_version": [
"Classical.choice",
"Quot.sound",
"propext"
],
"Quickly.Access.C86_name": [
"propext"
],
"Quickly.Access.C86_refers": [
"Classical.choice",
"Quot.sound",
"propext"
],
"Quickly.Access.C86_value": [
"Classical.choice",
"Quot.sound",
"propext"
],
"Quickly.Access.C86_wait": [
"Classical.choice",
"Quot.sound",
"propext"
],
"Quickly.Access.C86_with_name": [
"Classical.choice",
"Quot.sound",
"propext"
],
"Quickly.Add.C40_any_order": [
"Classical.choice",
"Quot.sound",
"propext"
],
"Quickly.Add.C40_history": [
"Classical.choice",
"Quot.sound",
"propext"
],
"Quickly.Add.C40_keeps_children": [
"propext"
],
"Quickly.Add.C40_place": [
"Classical.choice",
"Quot.sound",
"propext"
],
"Quickly.Add.C40_respects": [
"Classical.choice",
"Quot.sound",
"propext"
],
"Quickly.Add.C40_unlisted": [
"propext"
],
"Quickly.Assign.C54_bool": [
"Classical.choice",
"Quot.sound",
"propext"
],
"Quickly.Assign.C54_comment": [
"Classical.choice",
"Quot.sound",
"propext"
],
"Quickly.Assign.C54_get": [
"Classical.choice",
"Quot.sound",
"propext"
],
"Quickly.Assign.C54_get_node": [
"Classical.choice",
"Quot.sound",
"propext"
],
"Quickly.Assign.C54_get_plain": [
"Classical.choice",
"Quot.sound",
"propext"
],
"Quickly.Assign.C54_get_set_partial": [
"Classical.choice",
"Quot.sound",
"propext"
],
"Quickly.Assign.C54_history_partial": [
"Classical.choice",
"Quot.sound",
"propext"
],
"Quickly.Assign.C54_name": [
"propext"
],
"Quickly.Assign.C54_refused": [
"propext"
],
"Quickly.Assign.C54_set": [
"Classical.choice",
"Quot.sound",
"propext"
],
"Quickly.Assign.C54_single_tuple": [
"Classical.choice",
"Quot.sound",
"propext"
],
"Quickly.Assign.C54_twice": [
"Classical.choice",
"Quot.sound",
"propext"
],
"Quickly.Assign.C54_unset": [
"Classical.choice",
"Quot.sound",
"propext"
],
"Quickly.Assign.C54_variables": [
"propext"
],
"Quickly.Attr.C50_delete": [
"Classical.choice",
"Quot.sound",
"propext"
],
"Quickly.Attr.C50_getters": [
"Classical.choice",
"Quot.sound",
"propext"
],
"Quickly.Attr.C50_history": [
"Classical.choice",
"Quot.sound",
"propext"
],
"Quickly.Attr.C50_many_scalings": [
"Classical.choice",
"Quot.sound",
"propext"
],
"Quickly.Attr.C50_set_duration": [
"Classical.choice",
"Quot.sound",
"propext"
],
"Quickly.Attr.C50_set_many_scalings": [
"Classical.choice",
"Quot.sound",
"propext"
],
"Quickly.Attr.C50_set_scaling": [
"Classical.choice",
"Quot.sound",
"propext"
],
"Quickly.Attr.C51_independent": [
"Classical.choice",
"Quot.sound",
"propext"
],
"Quickly.Attr.C51_note_order": [
"Quot.sound",
"propext"
],
"Quickly.Attr.C51_octave_zero_keeps_child": [
"Quot.sound",
"propext"
],
"Quickly.Attr.C51_order": [
"Classical.choice",
"Quot.sound",
"propext"
],
"Quickly.Attr.C51_others_stay": [
"Classical.choice",
"Quot.sound",
"propext"
],
"Quickly.Build.C39_attached": [
"Classical.choice",
"Quot.sound",
"propext"
],
"Quickly.Build.C39_content": [
"Classical.choice",
"Quot.sound",
"propext"
],
"Quickly.Build.C39_greedy": [
"Classical.choice",
"Quot.sound",
"propext"
],
"Quickly.Build.C39_listing": [
"Classical.choice",
"Quot.sound",
"propext"
],
"Quickly.Build.C82_always": [
"Classical.choice",
"Quot.sound",
"propext"
],
"Quickly.Build.C82_nesting": [
"Classical.choice",
"Quot.sound",
"propext"
],
"Quickly.Build.C82_unique": [
"Classical.choice",
"Quot.sound",
"propext"
],
"Quickly.Copy.C95_copy_edits_exact": [
"Classical.choice",
"Quot.sound",
"propext"
],
"Quickly.Copy.C95_copy_edits_partial": [
"Quot.sound",
"propext"
],
"Quickly.Copy.C95_copy_exact": [
"Classical.choice",
"Quot.sound",
"propext"
],
"Quickly.Copy.C95_copy_is_new": [
"Classical.choice",
"Quot.sound",
"propext"
],
"Quickly.Copy.C95_copy_node": [
"Quot.sound",
"propext"
],
"Quickly.Copy.C95_copy_node_with_origin": [
"Quot.sound",
"propext"
],
"Quickly.Copy.C95_copy_text_partial": [
"Quot.sound",
"propext"
],
"Quickly.Copy.C95_origin_from": [
"Quot.sound",
"propext"
],
"Quickly.Copy.C95_origin_from_modified": [
"Quot.sound",
"propext"
],
"Quickly.Copy.C95_set_head": [
"propext"
],
"Quickly.Copy.C95_shape": [
"propext"
],
"Quickly.Copy.C95_spacing_lost": [
"Classical.choice",
"Quot.sound",
"propext"
],
"Quickly.Copy.C95_tail_unmodified": [
"Quot.sound",
"propext"
],
"Quickly.Cursor.C70_begin": [
"Classical.choice",
"Quot.sound",
"propext"
],
"Quickly.Cursor.C70_blank": [
"Classical.choice",
"Quot.sound",
"propext"
],
"Quickly.Cursor.C70_cursor_at_end": [
"Classical.choice",
"Quot.sound",
"propext"
],
"Quickly.Cursor.C70_end": [
"Classical.choice",
"Quot.sound",
"propext"
],
"Quickly.Cursor.C70_from_cursor_partial": [
"Classical.choice",
"Quot.sound",
"propext"
],
"Quickly.Cursor.C70_last_chord": [
"Classical.choice",
"Quot.sound",
"propext"
],
"Quickly.Cursor.C70_no_selection": [
"Classical.choice",
"Quot.sound",
"propext"
],
"Quickly.Cursor.C70_one_note": [
"Classical.choice",
"Quot.sound",
"propext"
],
"Quickly.Cursor.C70_past_end": [
"Classical.choice",
"Quot.sound",
"propext"
],
"Quickly.Cursor.C70_selection_partial": [
"Classical.choice",
"Quot.sound",
"propext"
],
"Quickly.Datatypes.C10_add_assoc": [
"Classical.choice",
"Quot.sound",
"propext"
],
"Quickly.Datatypes.C10_add_identity": [
"Classical.choice",
"Quot.sound",
"propext"
],
"Quickly.Datatypes.C10_eq_extensional": [
"Classical.choice",
"Quot.sound",
"propext"
],
"Quickly.Datatypes.C10_history": [
"Classical.choice",
"Quot.sound",
"propext"
],
"Quickly.Dump.C96_eval": [
"Classical.choice",
"Quot.sound",
"propext"
],
"Quickly.Dump.C96_lines": [
"Classical.choice",
"Quot.sound",
"propext"
],
"Quickly.Dump.C96_not_last": [
"Classical.choice",
"Quot.sound",
"propext"
],
"Quickly.DumpTree.C103_lines": [
"Classical.choice",
"Quot.sound",
"propext"
],
"Quickly.DumpTree.C103_readable": [
"Classical.choice",
"Quot.sound",
"propext"
],
"Quickly.DumpTree.C103_styles": [
"Classical.choice",
"Quot.sound",
"propext"
],
"Quickly.Duration.C04_duration_injective": [
"Classical.choice",
"Quot.sound",
"propext"
],
"Quickly.Duration.C04_duration_value": [
"Classical.choice",
"Quot.sound",
"propext"
],
"Quickly.Duration.C04_log_dotcount_duration": [
"Classical.choice",
"Quot.sound",
"propext"
],
"Quickly.Duration.C04_too_many_dots": [
"Classical.choice",
"Quot.sound",
"propext"
],
"Quickly.Duration.C05_truncation": [
"Classical.choice",
"Quot.sound",
"propext"
],
"Quickly.Duration.C05_zero": [
"Classical.choice",
"Quot.sound",
"propext"
],
"Quickly.Duration.C06_string_roundtrip": [
"Classical.choice",
"Quot.sound",
"propext"
],
"Quickly.Duration.C06_string_truncates": [
"Classical.choice",
"Quot.sound",
"propext"
],
"Quickly.Duration.C06_too_long": [
"Classical.choice",
"Quot.sound",
"propext"
],
"Quickly.Duration.C07_is_writable_iff": [
"Classical.choice",
"Quot.sound",
"propext"
],
"Quickly.Duration.C07_zero_is_writable": [
"Classical.choice",
"Quot.sound",
"propext"
],
"Quickly.Duration.C08_shift_compose": [
"Classical.choice",
"Quot.sound",
"propext"
],
"Quickly.Duration.C08_shift_inverse": [
"Classical.choice",
"Quot.sound",
"propext"
],
"Quickly.Duration.C08_shift_scales": [
"Classical.choice",
"Quot.sound",
"propext"
],
"Quickly.Duration.C08_shift_value": [
"Classical.choice",
"Quot.sound",
"propext"
],
"Quickly.Duration.C09_add_assoc": [
"Classical.choice",
"Quot.sound",
"propext"
],
"Quickly.Duration.C09_add_comm": [
"Classical.choice",
"Quot.sound",
"propext"
],
"Quickly.Duration.C09_add_identity": [
"Classical.choice",
"Quot.sound",
"propext"
],
"Quickly.Duration.C09_bool_iff": [
"Classical.choice",
"Quot.sound",
"propext"
],
"Quickly.Duration.C09_cutoff_differs": [
"Classical.choice",
"Quot.sound",
"propext"
],
"Quickly.Duration.C09_length": [
"Classical.choice",
"Quot.sound",
"propext"
],
"Quickly.Duration.C09_transform_add": [
"Classical.choice",
"Quot.sound",
"propext"
],
"Quickly.EditSel.C88_document": [
"Classical.choice",
"Quot.sound",
"propext"
],
"Quickly.EditSel.C88_inserts_outside": [
"Classical.choice",
"Quot.sound",
"propext"
],
"Quickly.EditSel.C88_no_changes": [
"Classical.choice",
"Quot.sound",
"propext"
],
"Quickly.EditSel.C88_raises": [
"Classical.choice",
"Quot.sound",
"propext"
],
"Quickly.EditSel.C88_readonly": [
"Classical.choice",
"Quot.sound",
"propext"
],
"Quickly.EditSel.C88_selection": [
"Classical.choice",
"Quot.sound",
"propext"
],
"Quickly.EditSel.C88_selection_nontrivial": [
"Classical.choice",
"Quot.sound",
"propext"
],
"Quickly.Edits.C38_deletes_outside_range": [
"Classical.choice",
"Quot.sound",
"propext"
],
"Quickly.Edits.C38_moved_loses_text": [],
"Quickly.Edits.C38_removed_partial": [
"Classical.choice",
"Quot.sound",
"propext"
],
"Quickly.Edits.C38_sorted_partial": [
"Classical.choice",
"Quot.sound",
"propext"
],
"Quickly.Edits.C38_start_after_first": [
"Quot.sound",
"propext"
],
"Quickly.Edits.C38_text_partial": [
"Classical.choice",
"Quot.sound",
"propext"
],
"Quickly.Edits.C38_unchanged": [
"Classical.choice",
"Quot.sound",
"propext"
],
"Quickly.Edits.C38_untouched_partial": [
"Classical.choice",
"Quot.sound",
"propext"
],
"Quickly.Files.C104_as_text_partial": [
"Classical.choice",
"Quot.sound",
"propext"
],
"Quickly.Files.C104_error": [
"Classical.choice",
"Quot.sound",
"propext"
],
"Quickly.Files.C104_error_nontrivial": [
"Classical.choice",
"Quot.sound",
"propext"
],
"Quickly.Files.C104_include_duration": [
"Classical.choice",
"Quot.sound",
"propext"
],
"Quickly.Files.C104_include_duration_nontrivial": [
"Classical.choice",
"Quot.sound",
"propext"
],
"Quickly.Files.C104_length_nontrivial": [
"Classical.choice",
"Quot.sound",
"propext"
],
"Quickly.Files.C104_length_partial": [
"Classical.choice",
"Quot.sound",
"propext"
],
"Quickly.Files.C104_variables_partial": [
"Classical.choice",
"Quot.sound",
"propext"
],
"Quickly.Find.C43_find_child": [
"Classical.choice",
"Quot.sound",
"propext"
],
"Quickly.Find.C43_find_descendant": [
"Classical.choice",
"Quot.sound",
"propext"
],
"Quickly.Find.C43_find_descendants": [
"Classical.choice",
"Quot.sound",
"propext"
],
"Quickly.Find.C43_find_left": [
"Classical.choice",
"Quot.sound",
"propext"
],
"Quickly.Find.C43_find_right": [
"Classical.choice",
"Quot.sound",
"propext"
],
"Quickly.Find.C43_pos_end": [
"Quot.sound",
"propext"
],
"Quickly.Group.C55_after_name": [
"propext"
],
"Quickly.Group.C55_assignment": [
"Quot.sound",
"propext"
],
"Quickly.Group.C55_at_end": [
"Quot.sound",
"propext"
],
"Quickly.Group.C55_duration_alone": [
"propext"
],
"Quickly.Group.C55_everywhere_partial": [
"Quot.sound",
"propext"
],
"Quickly.Group.C55_keeps_nodes": [
"propext"
],
"Quickly.Group.C55_lyric_alone": [
"propext"
],
"Quickly.Group.C55_lyric_comment": [],
"Quickly.Group.C55_lyric_duration": [
"propext"
],
"Quickly.Group.C55_lyric_other": [
"propext"
],
"Quickly.Group.C55_lyrics_keep": [
"propext"
],
"Quickly.Group.C55_no_assignment": [
"Quot.sound",
"propext"
],
"Quickly.Group.C55_only": [
"Quot.sound",
"propext"
],
"Quickly.Group.C55_other": [
"Quot.sound",
"propext"
],
"Quickly.Heads.C78_accepted_not_valid": [
"Classical.choice",
"Quot.sound",
"propext"
],
"Quickly.Heads.C78_index_error": [
"Classical.choice",
"Quot.sound",
"propext"
],
"Quickly.Heads.C78_read_written_partial": [
"Classical.choice",
"Quot.sound",
"propext"
],
"Quickly.Heads.C78_scheme_block_comment": [
"Classical.choice",
"Quot.sound",
"propext"
],
"Quickly.Heads.C78_source_kept_partial": [
"Classical.choice",
"Quot.sound",
"propext"
],
"Quickly.Heads.C78_valid": [
"Classical.choice",
"Quot.sound",
"propext"
],
"Quickly.Heap.C30_no_cycles": [
"Classical.choice",
"Quot.sound",
"propext"
],
"Quickly.Heap.C30_not_taken_out": [
"Quot.sound",
"propext"
],
"Quickly.Heap.C30_one_place": [
"Classical.choice",
"Quot.sound",
"propext"
],
"Quickly.Heap.C30_parent_links": [
"Classical.choice",
"Quot.sound",
"propext"
],
"Quickly.Heap.C30_take": [
"Classical.choice",
"Quot.sound",
"propext"
],
"Quickly.Html.C75_cdata": [
"Classical.choice",
"Quot.sound",
"propext"
],
"Quickly.Html.C75_injective": [
"Classical.choice",
"Quot.sound",
"propext"
],
"Quickly.Html.C75_plaintext": [
"Quot.sound",
"propext"
],
"Quickly.Html.C75_quoted": [
"Classical.choice",
"Quot.sound",
"propext"
],
"Quickly.Html.C75_resolver_ignored": [
"propext"
],
"Quickly.Html.C75_words": [
"Classical.choice",
"Quot.sound",
"propext"
],
"Quickly.Html.C75_write": [
"Classical.choice",
"Quot.sound",
"propext"
],
"Quickly.Html.C76_comments_deleted": [
"Classical.choice",
"Quot.sound",
"propext"
],
"Quickly.Html.C76_edit_partial": [
"Classical.choice",
"Quot.sound",
"propext"
],
"Quickly.Html.C76_lone_quote": [
"propext"
],
"Quickly.Html.C76_read": [
"Quot.sound",
"propext"
],
"Quickly.Indent.C42_equals_write": [
"Classical.choice",
"Quot.sound",
"propext"
],
"Quickly.Indent.C42_first_line": [
"Quot.sound",
"propext"
],
"Quickly.Indent.C42_lines": [
"Quot.sound",
"propext"
],
"Quickly.Indent.C42_newline": [
"Quot.sound",
"propext"
],
"Quickly.Indent.C42_no_error": [
"Quot.sound",
"propext"
],
"Quickly.Indent.C42_texts": [
"Classical.choice",
"Quot.sound",
"propext"
],
"Quickly.Indent.C62_align_grandchild": [
"Classical.choice",
"Quot.sound",
"propext"
],
"Quickly.Indent.C62_align_shifted": [
"Classical.choice",
"Quot.sound",
"propext"
],
"Quickly.Indent.C62_depth": [
"Classical.choice",
"Quot.sound",
"propext"
],
"Quickly.Indent.C62_layout": [
"Classical.choice",
"Quot.sound",
"propext"
],
"Quickly.Indent.C62_not_enclosed": [
"Classical.choice",
"Quot.sound",
"propext"
],
"Quickly.Key.C19_accidentals": [
"Classical.choice",
"Quot.sound",
"propext"
],
"Quickly.Key.C19_alterations": [
"Classical.choice",
"Quot.sound",
"propext"
],
"Quickly.Key.C19_circle": [
"Classical.choice",
"Quot.sound",
"propext"
],
"Quickly.Key.C19_modes": [
"Classical.choice",
"Quot.sound",
"propext"
],
"Quickly.Key.C19_no_mode": [
"Classical.choice",
"Quot.sound",
"propext"
],
"Quickly.Key.C19_sum": [
"Classical.choice",
"Quot.sound",
"propext"
],
"Quickly.Key.C19_tonic_fifth": [
"Classical.choice",
"Quot.sound",
"propext"
],
"Quickly.Key.C20_far_tonic_is_wrong": [
"Classical.choice",
"Quot.sound",
"propext"
],
"Quickly.Key.C20_own_accidentals": [
"Classical.choice",
"Quot.sound",
"propext"
],
"Quickly.Key.C20_sounds_partial": [
"Classical.choice",
"Quot.sound",
"propext"
],
"Quickly.Key.C20_usual_signatures": [
"Classical.choice",
"Quot.sound",
"propext"
],
"Quickly.Language.C65_agree": [
"Classical.choice",
"Quot.sound",
"propext"
],
"Quickly.Language.C65_find_partial": [
"Classical.choice",
"Quot.sound",
"propext"
],
"Quickly.Language.C65_follow_partial": [
"Classical.choice",
"Quot.sound",
"propext"
],
"Quickly.Language.C65_include_raises": [
"Classical.choice",
"Quot.sound",
"propext"
],
"Quickly.Language.C65_unknown_raises": [
"Classical.choice",
"Quot.sound",
"propext"
],
"Quickly.Language.C66_catalan_nothing": [
"Classical.choice",
"Quot.sound",
"propext"
],
"Quickly.Language.C66_distill": [
"Classical.choice",
"Quot.sound",
"propext"
],
"Quickly.Language.C66_english_long_written": [
"Classical.choice",
"Quot.sound",
"propext"
],
"Quickly.Language.C66_english_short": [
"Classical.choice",
"Quot.sound",
"propext"
],
"Quickly.Language.C66_norsk_other_spelling": [
"Classical.choice",
"Quot.sound",
"propext"
],
"Quickly.Language.C66_order": [
"Classical.choice",
"Quot.sound",
"propext"
],
"Quickly.Language.C66_written_partial": [
"Classical.choice",
"Quot.sound",
"propext"
],
"Quickly.Layout.C73_after": [
"Classical.choice",
"Quot.sound",
"propext"
],
"Quickly.Layout.C73_before": [
"Classical.choice",
"Quot.sound",
"propext"
],
"Quickly.Layout.C73_between": [
"Classical.choice",
"Quot.sound",
"propext"
],
"Quickly.Layout.C73_write_after_partial": [
"Classical.choice",
"Quot.sound",
"propext"
],
"Quickly.Layout.C73_write_before_partial": [
"Classical.choice",
"Quot.sound",
"propext"
],
"Quickly.Layout.C73_write_ignores_before": [
"Classical.choice",
"Quot.sound",
"propext"
],
"Quickly.Layout.C73_write_ignores_newline": [
"propext"
],
"Quickly.Length.C87_alternatives": [
"Classical.choice",
"Quot.sound",
"propext"
],
"Quickly.Length.C87_drum_chord": [
"Classical.choice",
"Quot.sound",
"propext"
],
"Quickly.Length.C87_length_nontrivial_shift": [
"Classical.choice",
"Quot.sound",
"propext"
],
"Quickly.Length.C87_length_nontrivial_tuplet": [
"Classical.choice",
"Quot.sound",
"propext"
],
"Quickly.Length.C87_length_partial": [
"Classical.choice",
"Quot.sound",
"propext"
],
"Quickly.Length.C87_mark": [
"Classical.choice",
"Quot.sound",
"propext"
],
"Quickly.Length.C87_repeat_once": [
"Classical.choice",
"Quot.sound",
"propext"
],
"Quickly.Length.C87_tag": [
"Classical.choice",
"Quot.sound",
"propext"
],
"Quickly.Lily.C81_duration_comment_lost": [
"Classical.choice",
"Quot.sound",
"propext"
],
"Quickly.Lily.C81_figure_comment": [
"Classical.choice",
"Quot.sound",
"propext"
],
"Quickly.Lily.C81_no_token_twice": [
"Classical.choice",
"Quot.sound",
"propext"
],
"Quickly.Lily.C81_nothing_lost_partial": [
"Classical.choice",
"Quot.sound",
"propext"
],
"Quickly.Lily.C81_order_partial": [
"Classical.choice",
"Quot.sound",
"propext"
],
"Quickly.Lily.C81_read_partial": [
"Classical.choice",
"Quot.sound",
"propext"
],
"Quickly.Lily.C81_score_brace_lost_partial": [
"Classical.choice",
"Quot.sound",
"propext"
],
"Quickly.Mapping.C45_commands": [
"Classical.choice",
"Quot.sound",
"propext"
],
"Quickly.Mapping.C45_construct": [
"Quot.sound",
"propext"
],
"Quickly.Mapping.C45_head_mapping": [
"Quot.sound",
"propext"
],
"Quickly.Mapping.C45_head_mapping_unique": [],
"Quickly.Mapping.C45_head_mapping_used": [
"Quot.sound",
"propext"
],
"Quickly.Mapping.C45_injective": [
"Quot.sound",
"propext"
],
"Quickly.Mapping.C45_numbers": [
"propext"
],
"Quickly.Mapping.C45_other_text": [
"Quot.sound",
"propext"
],
"Quickly.Mapping.C45_read_write": [
"Quot.sound",
"propext"
],
"Quickly.Mapping.C45_tables": [],
"Quickly.Mapping.C45_write_read": [
"Quot.sound",
"propext"
],
"Quickly.Markup.C80_as_is": [
"Classical.choice",
"Quot.sound",
"propext"
],
"Quickly.Markup.C80_evaluates": [
"Classical.choice",
"Quot.sound",
"propext"
],
"Quickly.Markup.C80_five_arguments": [
"Classical.choice",
"Quot.sound",
"propext"
],
"Quickly.Markup.C80_main": [
"Classical.choice",
"Quot.sound",
"propext"
],
"Quickly.Markup.C80_means": [
"Classical.choice",
"Quot.sound",
"propext"
],
"Quickly.Markup.C80_undefined": [
"Classical.choice",
"Quot.sound",
"propext"
],
"Quickly.Markup.C80_unique": [
"Classical.choice",
"Quot.sound",
"propext"
],
"Quickly.Markup.C80_with_link": [
"Classical.choice",
"Quot.sound",
"propext"
],
"Quickly.Newlines.C72_exact_partial": [
"Classical.choice",
"Quot.sound",
"propext"
],
"Quickly.Newlines.C72_indented": [
"Classical.choice",
"Quot.sound",
"propext"
],
"Quickly.Newlines.C72_missing_tail_raises": [
"Quot.sound",
"propext"
],
"Quickly.Newlines.C72_multiline_token": [
"Classical.choice",
"Quot.sound",
"propext"
],
"Quickly.Newlines.C72_set": [
"Classical.choice",
"Quot.sound",
"propext"
],
"Quickly.Newlines.C72_succeeds_partial": [
"Quot.sound",
"propext"
],
"Quickly.Newlines.C72_twice": [
"propext"
],
"Quickly.Newlines.C72_write": [
"Classical.choice",
"Quot.sound",
"propext"
],
"Quickly.Node.C26_descendants": [
"Classical.choice",
"Quot.sound",
"propext"
],
"Quickly.Node.C26_trail_order": [
"Classical.choice",
"Quot.sound",
"propext"
],
"Quickly.Node.C26_trail_total": [
"Classical.choice",
"Quot.sound",
"propext"
],
"Quickly.Node.C27_filter": [
"Classical.choice",
"Quot.sound",
"propext"
],
"Quickly.Node.C27_send_false": [
"Classical.choice",
"Quot.sound",
"propext"
],
"Quickly.Node.C28_backward": [
"Classical.choice",
"Quot.sound",
"propext"
],
"Quickly.Node.C28_forward": [
"Classical.choice",
"Quot.sound",
"propext"
],
"Quickly.Node.C28_forward_send": [
"Classical.choice",
"Quot.sound",
"propext"
],
"Quickly.Node.C28_partition": [
"Classical.choice",
"Quot.sound",
"propext"
],
"Quickly.Node.C29_common_ancestor": [
"Quot.sound",
"propext"
],
"Quickly.Node.C29_different_trees": [
"Quot.sound",
"propext"
],
"Quickly.Node.C29_symmetric": [
"Quot.sound",
"propext"
],
"Quickly.Node.C29_with_trail": [
"Quot.sound",
"propext"
],
"Quickly.Node.C31_copy": [
"Quot.sound",
"propext"
],
"Quickly.Node.C31_copy_shallow": [],
"Quickly.Node.C31_equals": [
"Quot.sound",
"propext"
],
"Quickly.Node.C31_equivalence": [
"Quot.sound",
"propext"
],
"Quickly.Node.C32_depth": [
"Classical.choice",
"Quot.sound",
"propext"
],
"Quickly.Node.C32_height": [
"Classical.choice",
"Quot.sound",
"propext"
],
"Quickly.Node.C32_root": [
"Quot.sound",
"propext"
],
"Quickly.NodeRange.C33_between_partial": [
"Classical.choice",
"Quot.sound",
"propext"
],
"Quickly.NodeRange.C33_descendants_send": [
"Classical.choice",
"Quot.sound",
"propext"
],
"Quickly.NodeRange.C33_empty_range_true": [
"Classical.choice",
"Quot.sound",
"propext"
],
"Quickly.NodeRange.C33_empty_range_yields": [
"Classical.choice",
"Quot.sound",
"propext"
],
"Quickly.NodeRange.C33_from_nodes": [
"Quot.sound",
"propext"
],
"Quickly.NodeRange.C33_nodes": [
"Classical.choice",
"Quot.sound",
"propext"
],
"Quickly.NodeRange.C33_nodes_send": [
"Classical.choice",
"Quot.sound",
"propext"
],
"Quickly.NodeRange.C33_start_above_not_yielded": [
"Classical.choice",
"Quot.sound",
"propext"
],
"Quickly.NodeRange.C33_truth": [
"Quot.sound",
"propext"
],
"Quickly.NodeRange.C34_completely_partial": [
"Classical.choice",
"Quot.sound",
"propext"
],
"Quickly.NodeRange.C34_contains": [
"Classical.choice",
"Quot.sound",
"propext"
],
"Quickly.NodeRange.C34_contains_not_complete": [
"Classical.choice",
"Quot.sound",
"propext"
],
"Quickly.NodeRange.C34_goto": [
"Classical.choice",
"Quot.sound",
"propext"
],
"Quickly.NodeRange.C34_in_range": [
"Classical.choice",
"Quot.sound",
"propext"
],
"Quickly.NodeRange.C34_intersects": [
"Classical.choice",
"Quot.sound",
"propext"
],
"Quickly.NodeRange.C34_intersects_end_at_ancestor": [
"Classical.choice",
"Quot.sound",
"propext"
],
"Quickly.NodeRange.C34_is_full": [
"Classical.choice",
"Quot.sound",
"propext"
],
"Quickly.NodeRange.C34_outside": [
"Classical.choice",
"Quot.sound",
"propext"
],
"Quickly.NodeRange.C35_extract_tree": [
"Classical.choice",
"Quot.sound",
"propext"
],
"Quickly.Numbering.C01_int2roman_domain": [
"Quot.sound",
"propext"
],
"Quickly.Numbering.C01_int2roman_injective": [
"Quot.sound",
"propext"
],
"Quickly.Numbering.C01_int2roman_is_standard": [
"Quot.sound",
"propext"
],
"Quickly.Numbering.C01_roman2int_domain": [
"Quot.sound",
"propext"
],
"Quickly.Numbering.C01_roman_roundtrip": [
"Quot.sound",
"propext"
],
"Quickly.Numbering.C02_empty_alphabet": [
"propext"
],
"Quickly.Numbering.C02_empty_iff": [
"Quot.sound",
"propext"
],
"Quickly.Numbering.C02_letter2int_domain": [
"Classical.choice",
"Quot.sound",
"propext"
],
"Quickly.Numbering.C02_letter_roundtrip": [
"Quot.sound",
"propext"
],
"Quickly.Numbering.C02_shorter_is_smaller": [
"Quot.sound",
"propext"
],
"Quickly.Numbering.C02_word_roundtrip": [
"Classical.choice",
"Quot.sound",
"propext"
],
"Quickly.Numbering.C03_int2text_denotes": [
"Classical.choice",
"Quot.sound",
"propext"
],
"Quickly.Numbering.C03_int2text_injective": [
"Classical.choice",
"Quot.sound",
"propext"
],
"Quickly.Numbering.C03_int2text_shape": [
"Quot.sound",
"propext"
],
"Quickly.Numbering.C03_int2text_total": [
"Classical.choice",
"Quot.sound",
"propext"
],
"Quickly.Pitch.C11_absolute_after_relative": [
"propext"
],
"Quickly.Pitch.C11_only_octave": [
"propext"
],
"Quickly.Pitch.C11_relative_after_absolute": [
"propext"
],
"Quickly.Pitch.C12_any_scale": [
"Classical.choice",
"Quot.sound",
"propext"
],
"Quickly.Pitch.C12_nearest": [
"Classical.choice",
"Quot.sound",
"propext"
],
"Quickly.Pitch.C12_octave_marks": [
"propext"
],
"Quickly.Pitch.C13_default_flats": [
"Classical.choice",
"Quot.sound",
"propext"
],
"Quickly.Pitch.C13_negative_note": [
"Classical.choice",
"Quot.sound",
"propext"
],
"Quickly.Pitch.C13_round_trip": [
"Classical.choice",
"Quot.sound",
"propext"
],
"Quickly.Pitch.C13_spelling": [
"Classical.choice",
"Quot.sound",
"propext"
],
"Quickly.Pitch.C13_to_midi_error": [
"Classical.choice",
"Quot.sound",
"propext"
],
"Quickly.Pitch.C14_consistent": [
"Classical.choice",
"Quot.sound",
"propext"
],
"Quickly.Pitch.C14_eq_copy": [
"propext"
],
"Quickly.Pitch.C14_transitive": [
"Classical.choice",
"Quot.sound",
"propext"
],
"Quickly.Pitch.C14_trichotomy": [
"Classical.choice",
"Quot.sound",
"propext"
],
"Quickly.Pitch.C15_key_error": [
"Classical.choice",
"Quot.sound",
"propext"
],
"Quickly.Pitch.C15_name_reads_back": [
"Classical.choice",
"Quot.sound",
"propext"
],
"Quickly.Pitch.C15_norsk_prefer_classic_inverted": [
"Classical.choice",
"Quot.sound",
"propext"
],
"Quickly.Pitch.C15_preference": [
"Classical.choice",
"Quot.sound",
"propext"
],
"Quickly.Pitch.C15_two_preferences": [
"Classical.choice",
"Quot.sound",
"propext"
],
"Quickly.Pitch.C16_name_kept": [
"Classical.choice",
"Quot.sound",
"propext"
],
"Quickly.Pitch.C16_pitchable": [
"Classical.choice",
"Quot.sound",
"propext"
],
"Quickly.Pitch.C16_process": [
"Classical.choice",
"Quot.sound",
"propext"
],
"Quickly.Pitch.C16_unchanged": [
"Classical.choice",
"Quot.sound",
"propext"
],
"Quickly.Pitch.C16_write_read": [
"Classical.choice",
"Quot.sound",
"propext"
],
"Quickly.Pitch.C16_write_succeeds": [
"Classical.choice",
"Quot.sound",
"propext"
],
"Quickly.Pitch.C17_additive": [
"propext"
],
"Quickly.Pitch.C17_minimal": [
"Classical.choice",
"Quot.sound",
"propext"
],
"Quickly.Pitch.C17_round_trip": [
"Quot.sound",
"propext"
],
"Quickly.Pitch.C17_to_string": [
"Classical.choice",
"Quot.sound",
"propext"
],
"Quickly.Pitch.C18_error": [
"Classical.choice",
"Quot.sound",
"propext"
],
"Quickly.Pitch.C18_exact": [
"Classical.choice",
"Quot.sound",
"propext"
],
"Quickly.PitchTime.C106_abs2rel": [
"Classical.choice",
"Quot.sound",
"propext"
],
"Quickly.PitchTime.C106_rel2abs": [
"Classical.choice",
"Quot.sound",
"propext"
],
"Quickly.PitchTime.C106_simultaneous": [
"Classical.choice",
"Quot.sound",
"propext"
],
"Quickly.PitchTime.C106_transpose": [
"Classical.choice",
"Quot.sound",
"propext"
],
"Quickly.PitchTime.C89_ends": [
"Classical.choice",
"Quot.sound",
"propext"
],
"Quickly.PitchTime.C89_selection": [
"Classical.choice",
"Quot.sound",
"propext"
],
"Quickly.Query.C61_instances_of": [
"Classical.choice",
"Quot.sound",
"propext"
],
"Quickly.Query.C61_not_implemented": [
"Quot.sound",
"propext"
],
"Quickly.Query.C61_operators": [
"Classical.choice",
"Quot.sound",
"propext"
],
"Quickly.Query.C61_partition": [
"Classical.choice",
"Quot.sound",
"propext"
],
"Quickly.RangeEdit.C60_ahead_partial": [
"Classical.choice",
"Quot.sound",
"propext"
],
"Quickly.RangeEdit.C60_before_start": [
"Classical.choice",
"Quot.sound",
"propext"
],
"Quickly.RangeEdit.C60_behind": [
"Classical.choice",
"Quot.sound",
"propext"
],
"Quickly.RangeEdit.C60_beyond": [
"Classical.choice",
"Quot.sound",
"propext"
],
"Quickly.RangeEdit.C60_boundaries_partial": [
"Classical.choice",
"Quot.sound",
"propext"
],
"Quickly.RangeEdit.C60_current_skips": [
"Classical.choice",
"Quot.sound",
"propext"
],
"Quickly.RangeEdit.C60_del_minus_one": [
"propext"
],
"Quickly.RangeEdit.C60_emptied": [
"Quot.sound",
"propext"
],
"Quickly.RangeEdit.C60_end_node_partial": [
"Classical.choice",
"Quot.sound",
"propext"
],
"Quickly.RangeEdit.C60_end_replaced": [
"Classical.choice",
"Quot.sound",
"propext"
],
"Quickly.RangeEdit.C60_insert_in_empty": [
"Classical.choice",
"Quot.sound",
"propext"
],
"Quickly.RangeEdit.C60_last_raises": [
"Classical.choice",
"Quot.sound",
"propext"
],
"Quickly.RangeEdit.C60_nodes": [
"propext"
],
"Quickly.RangeEdit.C60_set_item": [
"Classical.choice",
"Quot.sound",
"propext"
],
"Quickly.RangeEdit.C60_set_item_boundary": [
"Classical.choice",
"Quot.sound",
"propext"
],
"Quickly.RangeEdit.C60_set_item_keeps": [
"Classical.choice",
"Quot.sound",
"propext"
],
"Quickly.RangeEdit.C60_slices": [
"Classical.choice",
"Quot.sound",
"propext"
],
"Quickly.RangeEdit.C60_start_node_partial": [
"Classical.choice",
"Quot.sound",
"propext"
],
"Quickly.RangeEdit.C60_start_replaced": [
"Classical.choice",
"Quot.sound",
"propext"
],
"Quickly.RangeWalk.C102_children": [
"Classical.choice",
"Quot.sound",
"propext"
],
"Quickly.RangeWalk.C102_descendants": [
"Classical.choice",
"Quot.sound",
"propext"
],
"Quickly.RangeWalk.C102_operators": [
"Classical.choice",
"Quot.sound",
"propext"
],
"Quickly.RangeWalk.C102_operators_entered": [
"Classical.choice",
"Quot.sound",
"propext"
],
"Quickly.RangeWalk.C102_own_ancestor": [
"propext"
],
"Quickly.RangeWalk.C102_somewhere": [
"Classical.choice",
"Quot.sound",
"propext"
],
"Quickly.RangeWalk.C102_walk": [
"Classical.choice",
"Quot.sound",
"propext"
],
"Quickly.RangeWalk.C102_walk_entered": [
"Classical.choice",
"Quot.sound",
"propext"
],
"Quickly.Read.C63_chord_comment_moved": [
"propext"
],
"Quickly.Read.C63_chord_modifier_fails": [
"propext"
],
"Quickly.Read.C63_comment_lost": [
"propext"
],
"Quickly.Read.C63_correct_partial": [
"Quot.sound",
"propext"
],
"Quickly.Read.C63_no_token_twice": [
"Classical.choice",
"Quot.sound",
"propext"
],
"Quickly.Read.C63_nothing_lost_partial": [
"Classical.choice",
"Quot.sound",
"propext"
],
"Quickly.Read.C63_order_partial": [
"Quot.sound",
"propext"
],
"Quickly.Read.C63_tag_variable_lost": [
"propext"
],
"Quickly.Read.C63_tweak_comment_lost": [
"propext"
],
"Quickly.Read.C64_comment_replaces": [
"propext"
],
"Quickly.Read.C64_markup_list": [
"Quot.sound",
"propext"
],
"Quickly.Read.C64_markup_partial": [
"Quot.sound",
"propext"
],
"Quickly.Read.C64_no_token_twice": [
"Quot.sound",
"propext"
],
"Quickly.Read.C64_order": [
"propext"
],
"Quickly.Rel2abs.C25_check_skips": [
"Classical.choice",
"Quot.sound",
"propext"
],
"Quickly.Rel2abs.C25_document_partial": [
"Classical.choice",
"Quot.sound",
"propext"
],
"Quickly.Rel2abs.C25_empty_relative": [
"Classical.choice",
"Quot.sound",
"propext"
],
"Quickly.Rel2abs.C25_nested_twice": [
"Classical.choice",
"Quot.sound",
"propext"
],
"Quickly.Rel2abs.C25_relative_itself": [
"Classical.choice",
"Quot.sound",
"propext"
],
"Quickly.Rel2abs.C25_two_languages": [
"Classical.choice",
"Quot.sound",
"propext"
],
"Quickly.Rel2abs.C89_comment_lost": [
"Classical.choice",
"Quot.sound",
"propext"
],
"Quickly.Rel2abs.C89_every_tree": [
"Quot.sound",
"propext"
],
"Quickly.Rel2abs.C89_outside_selection": [
"Classical.choice",
"Quot.sound",
"propext"
],
"Quickly.Rel2abs.C89_rest_stays_partial": [
"Classical.choice",
"Quot.sound",
"propext"
],
"Quickly.Relative.C24_chordmode_in_relative": [
"Classical.choice",
"Quot.sound",
"propext"
],
"Quickly.Relative.C24_mixed_octaves": [
"Classical.choice",
"Quot.sound",
"propext"
],
"Quickly.Relative.C24_octave_check_wrong": [
"Classical.choice",
"Quot.sound",
"propext"
],
"Quickly.Relative.C24_octave_checks_partial": [
"Classical.choice",
"Quot.sound",
"propext"
],
"Quickly.Relative.C24_selected_partial": [
"Classical.choice",
"Quot.sound",
"propext"
],
"Quickly.Relative.C24_selection": [
"Classical.choice",
"Quot.sound",
"propext"
],
"Quickly.Relative.C24_sound_unique": [
"Classical.choice",
"Quot.sound",
"propext"
],
"Quickly.Relative.C24_succeeds": [
"Classical.choice",
"Quot.sound",
"propext"
],
"Quickly.Relative.C24_transpose_arguments": [
"Classical.choice",
"Quot.sound",
"propext"
],
"Quickly.Relative.C24_transpose_in_relative": [
"Classical.choice",
"Quot.sound",
"propext"
],
"Quickly.Relative.C24_transposes_partial": [
"Classical.choice",
"Quot.sound",
"propext"
],
"Quickly.Relative.C24_unselected": [
"Classical.choice",
"Quot.sound",
"propext"
],
"Quickly.Relative.C25_abs2rel_check": [
"Classical.choice",
"Quot.sound",
"propext"
],
"Quickly.Relative.C25_abs2rel_chord": [
"Classical.choice",
"Quot.sound",
"propext"
],
"Quickly.Relative.C25_abs2rel_chordmode": [
"Classical.choice",
"Quot.sound",
"propext"
],
"Quickly.Relative.C25_abs2rel_nested": [
"Classical.choice",
"Quot.sound",
"propext"
],
"Quickly.Relative.C25_abs2rel_partial": [
"Classical.choice",
"Quot.sound",
"propext"
],
"Quickly.Relative.C25_chordmode_in_relative": [
"Classical.choice",
"Quot.sound",
"propext"
],
"Quickly.Relative.C25_no_relative_left": [
"Classical.choice",
"Quot.sound",
"propext"
],
"Quickly.Relative.C25_rel2abs_partial": [
"Classical.choice",
"Quot.sound",
"propext"
],
"Quickly.Relative.C25_relative_in_fixed": [
"Classical.choice",
"Quot.sound",
"propext"
],
"Quickly.Relative.C25_round_trip_partial": [
"Classical.choice",
"Quot.sound",
"propext"
],
"Quickly.Relative.C56_fixed_partial": [
"Classical.choice",
"Quot.sound",
"propext"
],
"Quickly.Relative.C56_fixed_wrong": [
"Classical.choice",
"Quot.sound",
"propext"
],
"Quickly.Relative.C56_key": [
"Classical.choice",
"Quot.sound",
"propext"
],
"Quickly.Rhythm.C46_getter_partial": [
"Classical.choice",
"Quot.sound",
"propext"
],
"Quickly.Rhythm.C46_wrong": [
"Classical.choice",
"Quot.sound",
"propext"
],
"Quickly.Rhythm.C47_explicit_all": [
"Classical.choice",
"Quot.sound",
"propext"
],
"Quickly.Rhythm.C47_explicit_idempotent": [
"Classical.choice",
"Quot.sound",
"propext"
],
"Quickly.Rhythm.C47_explicit_implicit": [
"Classical.choice",
"Quot.sound",
"propext"
],
"Quickly.Rhythm.C47_explicit_inside_chord": [
"Classical.choice",
"Quot.sound",
"propext"
],
"Quickly.Rhythm.C47_explicit_keeps": [
"Classical.choice",
"Quot.sound",
"propext"
],
"Quickly.Rhythm.C47_explicit_starts_inside": [
"Classical.choice",
"Quot.sound",
"propext"
],
"Quickly.Rhythm.C47_implicit_idempotent": [
"Classical.choice",
"Quot.sound",
"propext"
],
"Quickly.Rhythm.C47_implicit_keeps": [
"Classical.choice",
"Quot.sound",
"propext"
],
"Quickly.Rhythm.C47_implicit_removes": [
"Classical.choice",
"Quot.sound",
"propext"
],
"Quickly.Rhythm.C47_per_line_keeps": [
"Classical.choice",
"Quot.sound",
"propext"
],
"Quickly.Rhythm.C47_per_line_no_document": [
"Quot.sound",
"propext"
],
"Quickly.Rhythm.C48_copy": [
"Classical.choice",
"Quot.sound",
"propext"
],
"Quickly.Rhythm.C48_paste": [
"Classical.choice",
"Quot.sound",
"propext"
],
"Quickly.Rhythm.C48_paste_copy": [
"Classical.choice",
"Quot.sound",
"propext"
],
"Quickly.Rhythm.C48_paste_copy_unreadable": [
"Classical.choice",
"Quot.sound",
"propext"
],
"Quickly.Rhythm.C49_implicit": [
"Classical.choice",
"Quot.sound",
"propext"
],
"Quickly.Rhythm.C49_paste": [
"Classical.choice",
"Quot.sound",
"propext"
],
"Quickly.Rhythm.C49_remove": [
"Classical.choice",
"Quot.sound",
"propext"
],
"Quickly.Rhythm.C49_scaling": [
"Classical.choice",
"Quot.sound",
"propext"
],
"Quickly.Rhythm.C57_after_skip": [
"Classical.choice",
"Quot.sound",
"propext"
],
"Quickly.Rhythm.C57_copy_explicit_partial": [
"Classical.choice",
"Quot.sound",
"propext"
],
"Quickly.Rhythm.C58_initial_not_transformed": [
"Classical.choice",
"Quot.sound",
"propext"
],
"Quickly.Rhythm.C58_transform_partial": [
"Classical.choice",
"Quot.sound",
"propext"
],
"Quickly.RhythmEdits.C100_paste_copy": [
"Classical.choice",
"Quot.sound",
"propext"
],
"Quickly.RhythmEdits.C100_refines": [
"Classical.choice",
"Quot.sound",
"propext"
],
"Quickly.RhythmEdits.C100_results": [
"Classical.choice",
"Quot.sound",
"propext"
],
"Quickly.RhythmEdits.C100_values": [
"Classical.choice",
"Quot.sound",
"propext"
],
"Quickly.RhythmEdits.C101_explicit_implicit": [
"Classical.choice",
"Quot.sound",
"propext"
],
"Quickly.RhythmEdits.C101_explicit_twice": [
"Classical.choice",
"Quot.sound",
"propext"
],
"Quickly.RhythmEdits.C101_implicit_twice": [
"Classical.choice",
"Quot.sound",
"propext"
],
"Quickly.RhythmEdits.C101_orderly": [
"Classical.choice",
"Quot.sound",
"propext"
],
"Quickly.RhythmEdits.C101_sequence": [
"Classical.choice",
"Quot.sound",
"propext"
],
"Quickly.RhythmEdits.C99_copy": [
"Classical.choice",
"Quot.sound",
"propext"
],
"Quickly.RhythmEdits.C99_only_durations": [
"Classical.choice",
"Quot.sound",
"propext"
],
"Quickly.RhythmEdits.C99_outside": [
"Classical.choice",
"Quot.sound",
"propext"
],
"Quickly.RhythmEdits.C99_place": [
"Classical.choice",
"Quot.sound",
"propext"
],
"Quickly.RhythmParts.C112_again": [
"Classical.choice",
"Quot.sound",
"propext"
],
"Quickly.RhythmParts.C112_implicit_parts": [
"Classical.choice",
"Quot.sound",
"propext"
],
"Quickly.RhythmParts.C112_order": [
"Classical.choice",
"Quot.sound",
"propext"
],
"Quickly.RhythmParts.C112_parts": [
"Classical.choice",
"Quot.sound",
"propext"
],
"Quickly.RhythmParts.C112_transform": [
"Classical.choice",
"Quot.sound",
"propext"
],
"Quickly.RhythmPitch.C111_edit": [
"Classical.choice",
"Quot.sound",
"propext"
],
"Quickly.RhythmPitch.C111_results": [
"Classical.choice",
"Quot.sound",
"propext"
],
"Quickly.RhythmPitch.C111_transposed": [
"Classical.choice",
"Quot.sound",
"propext"
],
"Quickly.RhythmTime.C93_explicit": [
"Classical.choice",
"Quot.sound",
"propext"
],
"Quickly.RhythmTime.C93_implicit": [
"Classical.choice",
"Quot.sound",
"propext"
],
"Quickly.RhythmTime.C93_implicit_per_line": [
"Classical.choice",
"Quot.sound",
"propext"
],
"Quickly.RhythmTime.C93_starts_inside": [
"Classical.choice",
"Quot.sound",
"propext"
],
"Quickly.RhythmTime.C94_default_duration": [
"Classical.choice",
"Quot.sound",
"propext"
],
"Quickly.RhythmTime.C94_scale": [
"Classical.choice",
"Quot.sound",
"propext"
],
"Quickly.RhythmTime.C94_shift": [
"Classical.choice",
"Quot.sound",
"propext"
],
"Quickly.RhythmTime.C94_shift_durations": [
"Classical.choice",
"Quot.sound",
"propext"
],
"Quickly.RhythmTwice.C113_back": [
"Classical.choice",
"Quot.sound",
"propext"
],
"Quickly.RhythmTwice.C113_cut_off": [
"Classical.choice",
"Quot.sound",
"propext"
],
"Quickly.RhythmTwice.C113_nothing": [
"Classical.choice",
"Quot.sound",
"propext"
],
"Quickly.RhythmTwice.C113_order": [
"Classical.choice",
"Quot.sound",
"propext"
],
"Quickly.RhythmTwice.C113_twice": [
"Classical.choice",
"Quot.sound",
"propext"
],
"Quickly.RoundTrip.C105_back_nontrivial": [
"Classical.choice",
"Quot.sound",
"propext"
],
"Quickly.RoundTrip.C105_back_partial": [
"Classical.choice",
"Quot.sound",
"propext"
],
"Quickly.RoundTrip.C105_chord": [
"Classical.choice",
"Quot.sound",
"propext"
],
"Quickly.Scheme.C68_exact_partial": [
"Classical.choice",
"Quot.sound",
"propext"
],
"Quickly.Scheme.C68_float": [
"Classical.choice",
"Quot.sound",
"propext"
],
"Quickly.Scheme.C68_float_truncated": [
"Classical.choice",
"Quot.sound",
"propext"
],
"Quickly.Scheme.C68_injective": [
"Classical.choice",
"Quot.sound",
"propext"
],
"Quickly.Scheme.C68_other_nan": [
"Classical.choice",
"Quot.sound",
"propext"
],
"Quickly.Scheme.C69_empty_tuple": [
"Classical.choice",
"Quot.sound",
"propext"
],
"Quickly.Scheme.C69_single_tuple": [
"Classical.choice",
"Quot.sound",
"propext"
],
"Quickly.Scheme.C69_unique": [
"Classical.choice",
"Quot.sound",
"propext"
],
"Quickly.Scheme.C69_value": [
"Classical.choice",
"Quot.sound",
"propext"
],
"Quickly.Scheme.Read.C67_comment_quoted": [
"propext"
],
"Quickly.Scheme.Read.C67_order": [
"Quot.sound",
"propext"
],
"Quickly.Scheme.Read.C67_quote_lost": [
"propext"
],
"Quickly.Scheme.Read.C67_read_partial": [
"Classical.choice",
"Quot.sound",
"propext"
],
"Quickly.Scheme.Read.C67_scheme": [
"Classical.choice",
"Quot.sound",
"propext"
],
"Quickly.Scheme.Read.C67_scheme_comment": [
"propext"
],
"Quickly.Scope.C53_chain_finite_partial": [
"Classical.choice",
"Quot.sound",
"propext"
],
"Quickly.Scope.C53_circular": [
"Classical.choice",
"Quot.sound",
"propext"
],
"Quickly.Scope.C53_include_distinct_partial": [
"Classical.choice",
"Quot.sound",
"propext"
],
"Quickly.Scope.C53_lookup_ends_partial": [
"Classical.choice",
"Quot.sound",
"propext"
],
"Quickly.Scope.C53_urls": [
"Classical.choice",
"Quot.sound",
"propext"
],
"Quickly.Scope.C59_ends": [
"Classical.choice",
"Quot.sound",
"propext"
],
"Quickly.Scope.C59_last_assignment": [
"Classical.choice",
"Quot.sound",
"propext"
],
"Quickly.Signature.C83_accepts": [
"Classical.choice",
"Quot.sound",
"propext"
],
"Quickly.Signature.C83_confused": [
"Classical.choice",
"Quot.sound",
"propext"
],
"Quickly.Signature.C83_confuses": [
"propext"
],
"Quickly.Signature.C83_only": [
"Classical.choice",
"Quot.sound",
"propext"
],
"Quickly.Signature.C83_refused": [
"Classical.choice",
"Quot.sound",
"propext"
],
"Quickly.Signature.C83_relative_tag": [
"Classical.choice",
"Quot.sound",
"propext"
],
"Quickly.Signature.C83_subclass": [
"Quot.sound",
"propext"
],
"Quickly.Signature.C83_takes_partial": [
"Classical.choice",
"Quot.sound",
"propext"
],
"Quickly.Signature.C83_text_partial": [
"Classical.choice",
"Quot.sound",
"propext"
],
"Quickly.Space.C41_history": [
"Quot.sound",
"propext"
],
"Quickly.Space.C41_independent": [
"Quot.sound",
"propext"
],
"Quickly.Space.C41_no_memory": [
"Quot.sound",
"propext"
],
"Quickly.Spanner.C77_from_other_end": [
"Classical.choice",
"Quot.sound",
"propext"
],
"Quickly.Spanner.C77_limit": [
"Classical.choice",
"Quot.sound",
"propext"
],
"Quickly.Spanner.C77_looks_into_other_context": [
"Quot.sound",
"propext"
],
"Quickly.Spanner.C77_nearest": [
"Classical.choice",
"Quot.sound",
"propext"
],
"Quickly.Spanner.C77_two_starts": [
"Quot.sound",
"propext"
],
"Quickly.Str.C44_no_open_quote": [
"Quot.sound",
"propext"
],
"Quickly.Str.C44_round_trip": [
"Quot.sound",
"propext"
],
"Quickly.Str.C44_tokenization": [
"Quot.sound",
"propext"
],
"Quickly.Str.C44_write_read": [
"Quot.sound",
"propext"
],
"Quickly.Tex.C79_begin_taken_for_end": [
"Classical.choice",
"Quot.sound",
"propext"
],
"Quickly.Tex.C79_comment_newline": [
"Classical.choice",
"Quot.sound",
"propext"
],
"Quickly.Tex.C79_edit": [
"Classical.choice",
"Quot.sound",
"propext"
],
"Quickly.Tex.C79_newlines": [
"Classical.choice",
"Quot.sound",
"propext"
],
"Quickly.Tex.C79_newlines_nontrivial": [
"Classical.choice",
"Quot.sound",
"propext"
],
"Quickly.Tex.C79_open_brace": [
"Classical.choice",
"Quot.sound",
"propext"
],
"Quickly.Tex.C79_open_bracket": [
"Classical.choice",
"Quot.sound",
"propext"
],
"Quickly.Tex.C79_open_lilypond": [
"Classical.choice",
"Quot.sound",
"propext"
],
"Quickly.Tex.C79_open_option": [
"Classical.choice",
"Quot.sound",
"propext"
],
"Quickly.Tex.C79_read": [
"Classical.choice",
"Quot.sound",
"propext"
],
"Quickly.Tex.C79_tokens": [
"Classical.choice",
"Quot.sound",
"propext"
],
"Quickly.Text.C36_collapse": [
"Classical.choice",
"Quot.sound",
"propext"
],
"Quickly.Text.C36_collapse_none": [],
"Quickly.Text.C36_collapse_unique": [
"Classical.choice",
"Quot.sound",
"propext"
],
"Quickly.Text.C36_combine": [
"Quot.sound",
"propext"
],
"Quickly.Text.C36_piecewise": [
"Classical.choice",
"Quot.sound",
"propext"
],
"Quickly.Text.C36_tab_not_piecewise": [],
"Quickly.Text.C36_texts": [
"Classical.choice",
"Quot.sound",
"propext"
],
"Quickly.Text.C37_after_head": [
"Classical.choice",
"Quot.sound",
"propext"
],
"Quickly.Text.C37_between": [
"Classical.choice",
"Quot.sound",
"propext"
],
"Quickly.Text.C37_child": [
"Classical.choice",
"Quot.sound",
"propext"
],
"Quickly.Text.C37_compositional": [
"Classical.choice",
"Quot.sound",
"propext"
],
"Quickly.Text.C37_squeezed": [
"Classical.choice",
"Quot.sound",
"propext"
],
"Quickly.Text.C37_texts": [
"Classical.choice",
"Quot.sound",
"propext"
],
"Quickly.Time.C52_after_grace_variable": [
"Classical.choice",
"Quot.sound",
"propext"
],
"Quickly.Time.C52_duration_partial": [
"Classical.choice",
"Quot.sound",
"propext"
],
"Quickly.Time.C52_duration_wrong": [
"Classical.choice",
"Quot.sound",
"propext"
],
"Quickly.Time.C52_length": [
"Classical.choice",
"Quot.sound",
"propext"
],
"Quickly.Time.C52_position": [
"Classical.choice",
"Quot.sound",
"propext"
],
"Quickly.Time.C52_position_include": [
"Classical.choice",
"Quot.sound",
"propext"
],
"Quickly.Time.C52_right_sibling": [
"Classical.choice",
"Quot.sound",
"propext"
],
"Quickly.Time.C52_scale": [
"Classical.choice",
"Quot.sound",
"propext"
],
"Quickly.Time.C52_scale_context": [
"Classical.choice",
"Quot.sound",
"propext"
],
"Quickly.Time.C52_start_together": [
"Classical.choice",
"Quot.sound",
"propext"
],
"Quickly.Time.C52_sum_max": [
"Classical.choice",
"Quot.sound",
"propext"
],
"Quickly.Time.C52_topmost": [
"Classical.choice",
"Quot.sound",
"propext"
],
"Quickly.Time.C52_undefined_variable": [
"Classical.choice",
"Quot.sound",
"propext"
],
"Quickly.Time.C52_variables_partial": [
"Classical.choice",
"Quot.sound",
"propext"
],
"Quickly.TimeCursor.C84_after_last": [
"Classical.choice",
"Quot.sound",
"propext"
],
"Quickly.TimeCursor.C84_end_of_text": [
"Classical.choice",
"Quot.sound",
"propext"
],
"Quickly.TimeCursor.C84_in_chord": [
"Classical.choice",
"Quot.sound",
"propext"
],
"Quickly.TimeCursor.C84_none": [
"Classical.choice",
"Quot.sound",
"propext"
],
"Quickly.TimeCursor.C84_outside": [
"Classical.choice",
"Quot.sound",
"propext"
],
"Quickly.TimeCursor.C84_part_of_note": [
"Classical.choice",
"Quot.sound",
"propext"
],
"Quickly.TimeCursor.C84_position": [
"Classical.choice",
"Quot.sound",
"propext"
],
"Quickly.TimeCursor.C84_selection": [
"Classical.choice",
"Quot.sound",
"propext"
],
"Quickly.Transpose.C21_from_to": [
"Classical.choice",
"Quot.sound",
"propext"
],
"Quickly.Transpose.C21_same_interval": [
"Classical.choice",
"Quot.sound",
"propext"
],
"Quickly.Transpose.C21_staff": [
"Classical.choice",
"Quot.sound",
"propext"
],
"Quickly.Transpose.C22_bounds": [
"Classical.choice",
"Quot.sound",
"propext"
],
"Quickly.Transpose.C22_deterministic": [
"Classical.choice",
"Quot.sound",
"propext"
],
"Quickly.Transpose.C22_major_scale": [
"Classical.choice",
"Quot.sound",
"propext"
],
"Quickly.Transpose.C22_respell_only_when_needed": [
"Classical.choice",
"Quot.sound",
"propext"
],
"Quickly.Transpose.C22_terminates": [
"Classical.choice",
"Quot.sound",
"propext"
],
"Quickly.Transpose.C22_wide_scale_exceeds": [
"Classical.choice",
"Quot.sound",
"propext"
],
"Quickly.Transpose.C23_add_interval": [
"Classical.choice",
"Quot.sound",
"propext"
],
"Quickly.Transpose.C23_add_sub_partial": [
"Classical.choice",
"Quot.sound",
"propext"
],
"Quickly.Transpose.C23_add_transposes": [
"Classical.choice",
"Quot.sound",
"propext"
],
"Quickly.Transpose.C23_sub_does_not_revert": [
"Classical.choice",
"Quot.sound",
"propext"
],
"Quickly.Transpose.C23_sub_interval_partial": [
"Classical.choice",
"Quot.sound",
"propext"
],
"Quickly.Transpose.C23_sub_moves": [
"Classical.choice",
"Quot.sound",
"propext"
],
"Quickly.Transpose.C23_sum_cannot_transpose": [
"Classical.choice",
"Quot.sound",
"propext"
],
"Quickly.TransposeAbs.C108_either_order": [
"Classical.choice",
"Quot.sound",
"propext"
],
"Quickly.TransposeAbs.C108_octave_check": [
"Classical.choice",
"Quot.sound",
"propext"
],
"Quickly.TransposeAbs.C108_relative_in_fixed": [
"Classical.choice",
"Quot.sound",
"propext"
],
"Quickly.TransposeAbs.C108_selection": [
"Classical.choice",
"Quot.sound",
"propext"
],
"Quickly.TransposeAbs.C108_transpose_in_relative": [
"Classical.choice",
"Quot.sound",
"propext"
],
"Quickly.TransposeBack.C92_back": [
"Classical.choice",
"Quot.sound",
"propext"
],
"Quickly.TransposeBack.C92_octave_check": [
"Classical.choice",
"Quot.sound",
"propext"
],
"Quickly.TransposeBack.C92_other_name": [
"Classical.choice",
"Quot.sound",
"propext"
],
"Quickly.TransposeBack.C92_respelled": [
"Classical.choice",
"Quot.sound",
"propext"
],
"Quickly.TransposeBack.C92_swapped": [
"Classical.choice",
"Quot.sound",
"propext"
],
"Quickly.TransposeBack.C92_undone": [
"Classical.choice",
"Quot.sound",
"propext"
],
"Quickly.TransposeDoc.C24_document": [
"Classical.choice",
"Quot.sound",
"propext"
],
"Quickly.TransposeDoc.C90_comment_in_transpose": [
"Classical.choice",
"Quot.sound",
"propext"
],
"Quickly.TransposeDoc.C90_inside_relative": [
"Classical.choice",
"Quot.sound",
"propext"
],
"Quickly.TransposeDoc.C90_nothing_selected": [
"Classical.choice",
"Quot.sound",
"propext"
],
"Quickly.TransposeDoc.C90_only_pitches": [
"Classical.choice",
"Quot.sound",
"propext"
],
"Quickly.TransposeDoc.C90_sounds_partial": [
"Classical.choice",
"Quot.sound",
"propext"
],
"Quickly.TransposeDoc.C90_succeeds": [
"Classical.choice",
"Quot.sound",
"propext"
],
"Quickly.TransposeKey.C97_document": [
"Classical.choice",
"Quot.sound",
"propext"
],
"Quickly.TransposeKey.C97_in_key": [
"Classical.choice",
"Quot.sound",
"propext"
],
"Quickly.TransposeKey.C97_names": [
"Classical.choice",
"Quot.sound",
"propext"
],
"Quickly.TransposeKey.C97_respelled_leaves_key": [
"Classical.choice",
"Quot.sound",
"propext"
],
"Quickly.TransposeKey.C97_same_accidental": [
"Classical.choice",
"Quot.sound",
"propext"
],
"Quickly.TransposeKey.C98_pairs": [
"Classical.choice",
"Quot.sound",
"propext"
],
"Quickly.TransposeKey.C98_pitch_list_partial": [
"Classical.choice",
"Quot.sound",
"propext"
],
"Quickly.TransposeKey.C98_pitch_mode_partial": [
"Classical.choice",
"Quot.sound",
"propext"
],
"Quickly.TransposeKey.C98_transposed": [
"Classical.choice",
"Quot.sound",
"propext"
],
"Quickly.TransposeKey.C98_undefined": [
"Classical.choice",
"Quot.sound",
"propext"
],
"Quickly.TransposeKey.C98_variable": [
"Classical.choice",
"Quot.sound",
"propext"
],
"Quickly.TransposeRel.C110_chord": [
"Classical.choice",
"Quot.sound",
"propext"
],
"Quickly.TransposeRel.C110_either_order": [
"Classical.choice",
"Quot.sound",
"propext"
],
"Quickly.TransposeRel.C110_start_pitch": [
"Classical.choice",
"Quot.sound",
"propext"
],
"Quickly.TransposeRel.C110_transposed": [
"Classical.choice",
"Quot.sound",
"propext"
],
"Quickly.TransposeTrip.C109_octave_check": [
"Classical.choice",
"Quot.sound",
"propext"
],
"Quickly.TransposeTrip.C109_relative_and_back_partial": [
"Classical.choice",
"Quot.sound",
"propext"
],
"Quickly.TransposeTwice.C107_chain": [
"Classical.choice",
"Quot.sound",
"propext"
],
"Quickly.TransposeTwice.C107_intervals": [
"Classical.choice",
"Quot.sound",
"propext"
],
"Quickly.TransposeTwice.C107_octave_check": [
"Classical.choice",
"Quot.sound",
"propext"
],
"Quickly.TransposeTwice.C107_respelled": [
"Classical.choice",
"Quot.sound",
"propext"
],
"Quickly.TransposeTwice.C107_twice": [
"Classical.choice",
"Quot.sound",
"propext"
],
"Quickly.Unknown.C74_copy_whole_text": [
"propext"
],
"Quickly.Unknown.C74_edit_partial": [
"Classical.choice",
"Quot.sound",
"propext"
],
"Quickly.Unknown.C74_none_left": [
"propext"
],
"Quickly.Unknown.C74_others": [
"Quot.sound",
"propext"
],
"Quickly.Unknown.C74_replaced": [
"Quot.sound",
"propext"
],
"Quickly.Unknown.C74_root_stays": [
"Quot.sound",
"propext"
],
"Quickly.Unknown.C74_write_partial": [
"Classical.choice",
"Quot.sound",
"propext"
],
"Quickly.Unknown.C74_write_raises": [
"Quot.sound",
"propext"
],
"Quickly.Wishes.C71_comment": [
"Classical.choice",
"Quot.sound",
"propext"
],
"Quickly.Wishes.C71_edit_apart": [
"Quot.sound",
"propext"
],
"Quickly.Wishes.C71_edit_comment_hides": [
"Classical.choice",
"Quot.sound",
"propext"
],
"Quickly.Wishes.C71_edit_partial": [
"Classical.choice",
"Quot.sound",
"propext"
],
"Quickly.Wishes.C71_indented": [
"Classical.choice",
"Quot.sound",
"propext"
],
"Quickly.Wishes.C71_write": [
"Classical.choice",
"Quot.sound",
"propext"
]
}