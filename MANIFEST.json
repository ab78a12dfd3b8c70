{
 "claims": [
  {
   "property": "C01",
   "status": "proved",
   "theorems": [
    "Liner.Props.C01_insert",
    "Liner.Props.C01_insert_panics_iff",
    "Liner.Props.C01_remove",
    "Liner.Props.C01_remove_panics_iff",
    "Liner.Props.C01_edits",
    "Liner.Props.C01_truncate_panics_iff",
    "Liner.Props.C01_insert_from_buffer_panics_iff",
    "Liner.Props.C01_copy_buffer"
   ],
   "note": "Splices and exact panic conditions for every edit."
  },
  {
   "property": "C02",
   "status": "proved",
   "theorems": [
    "Liner.Props.C02_undo_last_edit",
    "Liner.Props.C02_redo_last_edit"
   ],
   "note": "For any buffer whatsoever."
  },
  {
   "property": "C03",
   "status": "proved",
   "theorems": [
    "Liner.Props.C03_refines_snapshots",
    "Liner.Props.C03_undo_then_redo",
    "Liner.Props.C03_nested_empty_group_redo_violation",
    "Liner.Props.C03_open_group_violation"
   ],
   "note": "Refinement of the logs to a snapshot list for histories whose groups are closed and whose nested groups are non-empty; violations for other histories are proved."
  },
  {
   "property": "C04",
   "status": "partial",
   "theorems": [
    "Liner.Props.C04_group_one_step_partial",
    "Liner.Props.C04_flat_group_one_step",
    "Liner.Props.C04_empty_group_skipped",
    "Liner.Props.C04_nested_empty_group_violation"
   ],
   "note": "Holds when no nested group is empty (flat groups always); with an empty first nested group the code undoes too much (violation theorem)."
  },
  {
   "property": "C05",
   "status": "proved",
   "theorems": [
    "Liner.Props.C05_revert"
   ],
   "note": "Also for unbalanced groups."
  },
  {
   "property": "C06",
   "status": "proved",
   "theorems": [
    "Liner.Props.C06_no_panic",
    "Liner.Props.C06_in_range_ops_no_panic",
    "Liner.Props.C06_empty_insert_out_of_range_violation"
   ],
   "note": "For in-range histories; the out-of-range empty insert is a proved violation."
  },
  {
   "property": "C07",
   "status": "proved",
   "theorems": [
    "Liner.Props.C07_edit_discards_redo",
    "Liner.Props.C07_edit_discards_redo_markers"
   ],
   "note": ""
  },
  {
   "property": "C08",
   "status": "proved",
   "theorems": [
    "Liner.Props.C08_roundtrip",
    "Liner.Props.C08_num_chars",
    "Liner.Props.C08_num_bytes",
    "Liner.Props.C08_range",
    "Liner.Props.C08_range_panics_iff",
    "Liner.Props.C08_char_after",
    "Liner.Props.C08_char_after_none",
    "Liner.Props.C08_char_before",
    "Liner.Props.C08_lines",
    "Liner.Props.C08_width",
    "Liner.Props.C08_print",
    "Liner.Props.C08_is_empty",
    "Liner.Props.C08_eq"
   ],
   "note": ""
  },
  {
   "property": "C09",
   "status": "proved",
   "theorems": [
    "Liner.Props.C09_starts_with",
    "Liner.Props.C09_contains"
   ],
   "note": ""
  },
  {
   "property": "C10",
   "status": "proved",
   "theorems": [
    "Liner.Props.C10_last_arg"
   ],
   "note": ""
  },
  {
   "property": "C11",
   "status": "proved",
   "theorems": [
    "Liner.Props.C11_words",
    "Liner.Props.C11_words_unique"
   ],
   "note": "Existence and uniqueness of the division are both proved."
  },
  {
   "property": "C12",
   "status": "proved",
   "theorems": [
    "Liner.Props.C12_classifies",
    "Liner.Props.C12_classification_unique",
    "Liner.Props.C12_default_words_separated"
   ],
   "note": ""
  },
  {
   "property": "C13",
   "status": "proved",
   "theorems": [
    "Liner.Props.C13_lcp_none_and_one",
    "Liner.Props.C13_lcp",
    "Liner.Props.C13_lcp_none"
   ],
   "note": ""
  },
  {
   "property": "C14",
   "status": "proved",
   "theorems": [
    "Liner.Props.C14_remove_codes",
    "Liner.Props.C14_remove_codes_plain",
    "Liner.Props.C14_remove_codes_no_esc",
    "Liner.Props.C14_remove_codes_idempotent",
    "Liner.Props.C14_remove_codes_sublist",
    "Liner.Props.C14_handle_prompt",
    "Liner.Props.C14_last_prompt_line_width"
   ],
   "note": ""
  },
  {
   "property": "C15",
   "status": "partial",
   "theorems": [
    "Liner.Props.C15_push_keeps_newest_partial",
    "Liner.Props.C15_push_no_repeat_partial",
    "Liner.Props.C15_bound_partial",
    "Liner.Props.C15_bound_after_push",
    "Liner.Props.C15_bound_violation"
   ],
   "note": "Exact content for every configuration in which push does not reload the shared file; the bound for all configurations with max_file_size <= max_buffers_size. The remaining configuration breaks the bound (violation theorem)."
  },
  {
   "property": "C16",
   "status": "proved",
   "theorems": [
    "Liner.Props.C16_repeat_ignored",
    "Liner.Props.C16_no_adjacent_repeats_step",
    "Liner.Props.C16_no_adjacent_repeats"
   ],
   "note": "All configurations, including reloads of a shared file."
  },
  {
   "property": "C17",
   "status": "proved",
   "theorems": [
    "Liner.Props.C17_newest_match",
    "Liner.Props.C17_no_match"
   ],
   "note": ""
  },
  {
   "property": "C18",
   "status": "proved",
   "theorems": [
    "Liner.Props.C18_subset",
    "Liner.Props.C18_no_index_twice"
   ],
   "note": ""
  },
  {
   "property": "C19",
   "status": "proved",
   "theorems": [
    "Liner.Props.C19_search_index",
    "Liner.Props.C19_search_index_empty"
   ],
   "note": ""
  },
  {
   "property": "C20",
   "status": "proved",
   "theorems": [
    "Liner.Props.C20_commit_content",
    "Liner.Props.C20_commit_inc_append",
    "Liner.Props.C20_commit_to_file",
    "Liner.Props.C20_save_load",
    "Liner.Props.C20_round_trip",
    "Liner.Props.C20_conditions_needed"
   ],
   "note": "Also the exact file content and, for longer histories, the newest max_file_size entries. The three conditions on entries are shown to be needed."
  },
  {
   "property": "C21",
   "status": "proved",
   "theorems": [
    "Liner.Props.C21_every_file",
    "Liner.Props.C21_lines_unique",
    "Liner.Props.C21_load_lines",
    "Liner.Props.C21_reload_when_length_differs",
    "Liner.Props.C21_skip_when_length_equal",
    "Liner.Props.C21_unreadable",
    "Liner.Props.C21_set_file_name"
   ],
   "note": "Every file content has lines in the sense of the spec, and they are unique."
  },
  {
   "property": "C22",
   "status": "partial",
   "theorems": [
    "Liner.Props.C22_load_keeps_last_partial",
    "Liner.Props.C22_keepLast",
    "Liner.Props.C22_keepLast_order",
    "Liner.Props.C22_multiline_violation"
   ],
   "note": "Complete for append=false; with append=true the old entries must not contain newlines (violation theorem)."
  },
  {
   "property": "C23",
   "status": "partial",
   "theorems": [
    "Liner.Props.C23_push_appends",
    "Liner.Props.C23_push_all_partial",
    "Liner.Props.C23_push_all_no_repeat_partial",
    "Liner.Props.C23_compaction_loses_line_violation",
    "Liner.Props.C23_thirty_pushes_violation",
    "Liner.Props.C23_shared_compaction_violation"
   ],
   "note": "Exact with load_duplicates=true and between compactions; with load_duplicates=false every thirtieth line is lost (violation theorems, general and reachable)."
  },
  {
   "property": "C24",
   "status": "partial",
   "theorems": [
    "Liner.Props.C24_compaction_content",
    "Liner.Props.C24_compaction_lines_partial",
    "Liner.Props.C24_carriage_return_violation"
   ],
   "note": "Exact file content for all files; as lines read back, for lines not ending in a carriage return (violation theorem)."
  },
  {
   "property": "C25",
   "status": "proved",
   "theorems": [
    "Liner.Props.C25_interleavings",
    "Liner.Props.C25_order",
    "Liner.Props.C25_all_accepted"
   ],
   "note": "Any number of sessions, any schedule of pushes and refreshes, sessions with load_duplicates=true."
  },
  {
   "property": "C26",
   "status": "proved",
   "theorems": [
    "Liner.Props.C26_crash_prefix",
    "Liner.Props.C26_load_after_crash",
    "Liner.Props.C26_no_crash"
   ],
   "note": "Every crash point, including inside a UTF-8 sequence."
  },
  {
   "property": "C27",
   "status": "partial",
   "theorems": [
    "Liner.Props.C27_refresh_shows_others_partial",
    "Liner.Props.C27_refresh_keeps_own",
    "Liner.Props.C27_same_length_violation"
   ],
   "note": "For sessions that only append with load_duplicates=true; a same-length rewrite goes unnoticed (violation theorem)."
  },
  {
   "property": "C28",
   "status": "partial",
   "theorems": [
    "Liner.Props.C28_ops_partial",
    "Liner.Props.C28_recovers",
    "Liner.Props.C28_emacs",
    "Liner.Props.C28_vi",
    "Liner.Props.C28_io_error_violation"
   ],
   "note": "Proved for every sequence of successful operations and for every Emacs and vi key sequence of read_line, from any editor state, with arbitrary terminal behaviour. Does not hold after an operation that failed with an I/O error (C28_io_error_violation); the next redraw repairs it (C28_recovers)."
  },
  {
   "property": "C29",
   "status": "proved",
   "theorems": [
    "Liner.Props.C29_ops",
    "Liner.Props.C29_ops_unshared",
    "Liner.Props.C29_emacs",
    "Liner.Props.C29_vi",
    "Liner.Props.C29_take_exec_buffer_violation"
   ],
   "note": "For operation sequences and whole read_line runs, whether they succeed or fail. take_exec_buffer, which is not an editing operation, empties a stored entry (C29_take_exec_buffer_violation)."
  },
  {
   "property": "C30",
   "status": "partial",
   "theorems": [
    "Liner.Props.C30_insert_partial",
    "Liner.Props.C30_delete_before_partial",
    "Liner.Props.C30_delete_before_start_partial",
    "Liner.Props.C30_delete_after_partial",
    "Liner.Props.C30_delete_after_end_partial",
    "Liner.Props.C30_delete_all_before_partial",
    "Liner.Props.C30_delete_all_after_partial",
    "Liner.Props.C30_delete_until_forward_partial",
    "Liner.Props.C30_delete_until_backward_partial",
    "Liner.Props.C30_delete_until_inclusive_forward_partial",
    "Liner.Props.C30_delete_until_inclusive_backward_partial",
    "Liner.Props.C30_delete_until_outside",
    "Liner.Props.C30_hypothesis_vi",
    "Liner.Props.C30_translate",
    "Liner.Props.C30_hypothesis_emacs",
    "Liner.Props.C30_search_violation"
   ],
   "note": "Proved under SearchOnNewLine (no history entry is the line being edited during a search), which holds whenever vi or Emacs keys other than Alt-< were used (C30_hypothesis_*). After Ctrl-R Alt-< typed text is lost (C30_search_violation). Lands moves the cursor to the last character where no_eol forbids the end."
  },
  {
   "property": "C31",
   "status": "partial",
   "theorems": [
    "Liner.Props.C31_left_partial",
    "Liner.Props.C31_left_clamps_partial",
    "Liner.Props.C31_right_partial",
    "Liner.Props.C31_right_clamps_partial",
    "Liner.Props.C31_to_partial",
    "Liner.Props.C31_to_clamps_partial",
    "Liner.Props.C31_start_partial",
    "Liner.Props.C31_end_partial",
    "Liner.Props.C31_search_violation"
   ],
   "note": "Same hypothesis as C30; C31_search_violation shows a motion that changes the text."
  },
  {
   "property": "C32",
   "status": "partial",
   "theorems": [
    "Liner.Props.C32_undo_partial",
    "Liner.Props.C32_redo_partial",
    "Liner.Props.C32_revert_partial",
    "Liner.Props.C32_undo_error",
    "Liner.Props.C32_revert_new_line_emacs",
    "Liner.Props.C32_revert_new_line_vi",
    "Liner.Props.C32_undo_entry_violation",
    "Liner.Props.C32_revert_entry_violation"
   ],
   "note": "Proved for the new line and for history entries already edited. On an entry not yet edited undo reports success and empties the line; revert of an edited entry always empties the line (C32_*_violation)."
  },
  {
   "property": "C33",
   "status": "proved",
   "theorems": [
    "Liner.Props.C33_dismisses_list",
    "Liner.Props.C33_continues",
    "Liner.Props.C33_finishes",
    "Liner.Props.C33_search_list_violation",
    "Liner.Props.C33_search"
   ],
   "note": "C33_search describes Enter in a search; there, with a list shown, it also replaces the line (C33_search_list_violation, outside the quantifier)."
  },
  {
   "property": "C34",
   "status": "proved",
   "theorems": [
    "Liner.Props.C34_walk",
    "Liner.Props.C34_kth",
    "Liner.Props.C34_oldest",
    "Liner.Props.C34_back"
   ],
   "note": "For every sequence of moves from the new line; UpToDate says that a shared history equals its file (a private history always satisfies it). Further edits of displayed entries do not matter, as the moves discard them."
  },
  {
   "property": "C35",
   "status": "partial",
   "theorems": [
    "Liner.Props.C35_walk_partial",
    "Liner.Props.C35_back_partial",
    "Liner.Props.C35_stale_violation"
   ],
   "note": "Proved when no earlier walk is pending (historySubsetLoc = none). After Alt-> and more typing the next Up continues the old walk (C35_stale_violation)."
  },
  {
   "property": "C36",
   "status": "partial",
   "theorems": [
    "Liner.Props.C36_walk_partial",
    "Liner.Props.C36_cycle_partial",
    "Liner.Props.C36_order_partial",
    "Liner.Props.C36_near",
    "Liner.Props.C36_typed",
    "Liner.Props.C36_deleted",
    "Liner.Props.C36_contains_emacs",
    "Liner.Props.C36_contains_vi",
    "Liner.Props.C36_contains_ops",
    "Liner.Props.C36_start_violation"
   ],
   "note": "The walk, its order and the cycle are proved for a search that starts with no entry selected (C36_walk_partial, C36_order_partial, C36_cycle_partial). C36_near covers the other starts: the nearest match from the entry selected before. C36_typed and C36_deleted give the selection after editing the pattern. C36_contains_* hold after every key sequence. C36_start_violation: after Alt-> a search does not start with the newest match."
  },
  {
   "property": "C37",
   "status": "proved",
   "theorems": [
    "Liner.Props.C37_emacs",
    "Liner.Props.C37_vi",
    "Liner.Props.C37_ops"
   ],
   "note": "For every state reached by keys or operations from a new editor, with any terminal behaviour, whenever no search is active and the new line is displayed."
  },
  {
   "property": "C38",
   "status": "partial",
   "theorems": [
    "Liner.Props.C38_keys_emacs",
    "Liner.Props.C38_keys_vi_partial",
    "Liner.Props.C38_emacs_partial",
    "Liner.Props.C38_vi_partial"
   ],
   "note": "Proved for every state reached by Emacs or vi keys; C38_keys_emacs and C38_keys_vi_partial say which keys take the suggestion: Ctrl-F always, Right exactly when the cursor is at the end (in the normal mode: on the last character). Not covered: panics inside the redraw, see C42, and Right on an empty line in the normal mode, which panics (C57_right_violation)."
  },
  {
   "property": "C39",
   "status": "partial",
   "theorems": [
    "Liner.Props.C39_none",
    "Liner.Props.C39_one",
    "Liner.Props.C39_several",
    "Liner.Props.C39_cases",
    "Liner.Props.C39_inside_word_violation"
   ],
   "note": "All cases are proved for the default word divider and for every state in which a search does not display a history entry (an invariant of reachable states, see C30) and, in vi normal mode, the cursor is not after the last character (C49). The completer is asked about the whole word around the cursor, but only the part before the cursor is replaced: with the cursor inside a word the rest of the word stays behind the candidate (C39_inside_word_violation)."
  },
  {
   "property": "C40",
   "status": "proved",
   "theorems": [
    "Liner.Props.C40_cycle",
    "Liner.Props.C40_from_first"
   ],
   "note": "For the default word divider; a candidate is a single word if its first character is neither a space nor a backslash and its spaces are escaped. The part of the touched word after the cursor counts as the rest of the line."
  },
  {
   "property": "C41",
   "status": "proved",
   "theorems": [
    "Liner.Props.C41_delete_word",
    "Liner.Props.C41_no_word",
    "Liner.Props.C41_default",
    "Liner.Props.C41_removed"
   ],
   "note": "For every word divider whose words come in order and are separated; C41_default for the default divider and the words as specified in C11. Partial correctness: errors keep the text, absence of panics is a different property."
  },
  {
   "property": "C42",
   "status": "partial",
   "theorems": [
    "Liner.Props.C42_rows_violation",
    "Liner.Props.C42_edit_partial",
    "Liner.Props.C42_search_partial",
    "Liner.Props.C42_search_violation",
    "Liner.Props.C42_lines_violation",
    "Liner.Props.C42_indicator_violation"
   ],
   "note": "Outside a search a redraw never panics, at any width (0 included), for any prompt, closure and list of completions, if cutting a text does not widen it and the line has one line or is continued only by ASCII entries. In a search, if widths add up, the term has one line without escape characters, the mode indicator has no more bytes than columns and every entry is ASCII or begins with the term. Partial: counterexamples show that these conditions cannot be dropped (entry `éb` searched with `b`; a continued multi-line line; a mode indicator with a multi-line search)."
  },
  {
   "property": "C43",
   "status": "partial",
   "theorems": [
    "Liner.Props.C43_redraw_partial",
    "Liner.Props.C43_search_partial",
    "Liner.Props.C43_start_partial",
    "Liner.Props.C43_search_violation",
    "Liner.Props.C43_edge_violation",
    "Liner.Props.C43_search_wide_violation",
    "Liner.Props.C43_empty_violation",
    "Liner.Props.C43_indent_violation",
    "Liner.Props.C43_wide_violation",
    "Liner.Props.C43_enter_violation",
    "Liner.Props.C43_list_violation"
   ],
   "note": "With a terminal emulator as specification, on which characters take one, two or no columns as the editor's width function counts them: from a state whose row count is right, a redraw shows the rows of the list of candidates if there is one, then prompt, line and suggestion, or in a search the term, its place and the entry found; it leaves the rows above alone, puts the cursor where the text (or term) before the editing cursor ends, and the row count is right again; opening an editor establishes this. Partial: no character of two columns meets the right edge; width-one characters in lists of candidates and searches; prompt not empty, a list whose last row is not full and of which two candidates fit on a row, in a search a first line that reaches to the cursor, and (for the opening) a prompt narrower than the terminal; eight counterexamples show what happens otherwise."
  },
  {
   "property": "C44",
   "status": "partial",
   "theorems": [
    "Liner.Props.C44_ctrl_c_partial",
    "Liner.Props.C44_ctrl_d_empty_partial",
    "Liner.Props.C44_ctrl_d_key",
    "Liner.Props.C44_only_emacs",
    "Liner.Props.C44_only_vi"
   ],
   "note": "Ctrl-C (and Ctrl-D on an empty line) never succeeds, fails with exactly the stated error if the terminal works, and leaves the stored history; the converse (no other key and no other line gives these errors) for both key maps; Ctrl-D on a non-empty line is handed to the key map. Partial: the redraw before returning may panic (C42)."
  },
  {
   "property": "C45",
   "status": "proved",
   "theorems": [
    "Liner.Props.C45_returns",
    "Liner.Props.C45_read_error",
    "Liner.Props.C45_enter",
    "Liner.Props.C45_start_emacs",
    "Liner.Props.C45_start_vi"
   ],
   "note": "read_line succeeds exactly when the keys run out or Enter finishes the line, and returns the text of the current line then; Enter outside a search leaves the text alone (what it does inside a search is C33); the initial buffer is the starting text with the cursor at its end, for both key maps."
  },
  {
   "property": "C46",
   "status": "proved",
   "theorems": [
    "Liner.Props.C46_step",
    "Liner.Props.C46_run"
   ],
   "note": "C46_step: one editing key after any session, outside a search, with the suggestion in view. C46_run: any sequence of editing keys on a new line, from the creation of the editor, with the suggestion computed from the history; no I/O error when the terminal works and no panic outside the redraw (see C42)."
  },
  {
   "property": "C47",
   "status": "proved",
   "theorems": [
    "Liner.Props.C47_moves",
    "Liner.Props.C47_default"
   ],
   "note": "After any Emacs session outside a search; C47_moves for every word divider whose words come in order, C47_default for the default one. No panic outside the redraw (C42)."
  },
  {
   "property": "C48",
   "status": "partial",
   "theorems": [
    "Liner.Props.C48_first",
    "Liner.Props.C48_nothing",
    "Liner.Props.C48_presses_partial",
    "Liner.Props.C48_word_violation",
    "Liner.Props.C48_middle_violation",
    "Liner.Props.C48_blank_violation",
    "Liner.Props.C48_accept_violation"
   ],
   "note": "The first press is proved in full (C48_first, C48_nothing). Further presses are proved when the cursor is at the end of a line that is empty or ends in a space and no entry involved is blank; the violation theorems show that the crate does something else otherwise."
  },
  {
   "property": "C49",
   "status": "proved",
   "theorems": [
    "Liner.Props.C49_cursor",
    "Liner.Props.C49_inside"
   ],
   "note": "After any keys of a vi session, including the keys handled before the key map sees them."
  },
  {
   "property": "C50",
   "status": "proved",
   "theorems": [
    "Liner.Props.C50_search",
    "Liner.Props.C50_again"
   ],
   "note": "For every line, cursor, character and count; tab and newline cannot be searched for because those keys never reach the key map. Assumes that no character is both white space and alphanumeric."
  },
  {
   "property": "C51",
   "status": "proved",
   "theorems": [
    "Liner.Props.C51_words",
    "Liner.Props.C51_leads"
   ],
   "note": "Words are specified by positions where a word starts or ends; a motion that finds none leads to the end (w, e) or start (b, ge) of the line and the cursor stays on the line. Assumes that no character is both white space and alphanumeric."
  },
  {
   "property": "C52",
   "status": "partial",
   "theorems": [
    "Liner.Props.C52_delete_partial",
    "Liner.Props.C52_change_partial",
    "Liner.Props.C52_zero",
    "Liner.Props.C52_empty_violation",
    "Liner.Props.C52_nothing_violation",
    "Liner.Props.C52_home_violation"
   ],
   "note": "Proved for every line, cursor, motion and pair of counts. Left out: motions that include their last character on an empty line, which panic (C52_empty_violation), 0 with a count (C53_zero_violation), the key Right (which can be taken by a suggestion), and Home and End, after which the operator goes on waiting (C52_home_violation). C52_nothing_violation: a failed f deletes the character under the cursor."
  },
  {
   "property": "C53",
   "status": "partial",
   "theorems": [
    "Liner.Props.C53_zero",
    "Liner.Props.C53_digits",
    "Liner.Props.C53_counted",
    "Liner.Props.C53_zero_violation"
   ],
   "note": "Digits, counts before motions and the product of both counts are proved without bound on the number of digits. C53_zero_violation: a count before an operator turns a following 0 into a digit."
  },
  {
   "property": "C54",
   "status": "partial",
   "theorems": [
    "Liner.Props.C54_x",
    "Liner.Props.C54_s",
    "Liner.Props.C54_D",
    "Liner.Props.C54_C",
    "Liner.Props.C54_insert",
    "Liner.Props.C54_replace",
    "Liner.Props.C54_tilde_partial",
    "Liner.Props.C54_line",
    "Liner.Props.C54_tilde_violation"
   ],
   "note": "Proved for every line, cursor and count: x, s, D, C, i, a, I, A, r, ~ and dd/cc. C54_tilde_violation: ~ does not use up its count, so 3~ followed by x deletes three characters; the theorem for ~ therefore only covers the text it leaves, not the count after it."
  },
  {
   "property": "C55",
   "status": "partial",
   "theorems": [
    "Liner.Props.C55_moved",
    "Liner.Props.C55_moved_again",
    "Liner.Props.C55_undo_partial",
    "Liner.Props.C55_again_partial",
    "Liner.Props.C55_first",
    "Liner.Props.C55_change_violation"
   ],
   "note": "Proved from every state of a session: a whole command that changed the text (typed text and Esc included) is taken back by one u, and the commands before it can then be taken back as if it had not been given; so is what is typed before the first Esc. Text typed after a cursor key in insert mode is a change of its own, taken back by its own u. Not covered: Tab and keys handled before the key map, the walk through the history, and an operator c that is given up; C55_change_violation: c followed by Esc leaves an undo group open, and the next u takes back two commands at once."
  },
  {
   "property": "C56",
   "status": "partial",
   "theorems": [
    "Liner.Props.C56_change",
    "Liner.Props.C56_dot_partial",
    "Liner.Props.C56_find_violation",
    "Liner.Props.C56_changeEnd_violation",
    "Liner.Props.C56_changeLine_violation",
    "Liner.Props.C56_deleteLine_violation",
    "Liner.Props.C56_zero_violation",
    "Liner.Props.C56_cancel_violation",
    "Liner.Props.C56_cursor_violation",
    "Liner.Props.C56_tilde_violation"
   ],
   "note": "Proved from every state of a session: x, Delete, ~, D, r, d and c with any motion, i, a, I, A and s with any keys that type or delete characters, with counts before and after the operator, change the line as described by an independent specification (C56_change); after such a change, then any keys that begin no other change and any earlier repetitions, . makes the same change at the cursor with its count or the new one and ends in normal mode (C56_dot_partial). The code violates the rest, each with a witness: the count of a change with f, t, F or T is forgotten; a repeated C stays in insert mode; dd and cc are not recorded; a repeated d0 leaves the operator waiting; c and Esc forget the change before; an insertion with cursor keys repeats only its last part; ~ keeps its count."
  },
  {
   "property": "C57",
   "status": "partial",
   "theorems": [
    "Liner.Props.C57_depth",
    "Liner.Props.C57_equation",
    "Liner.Props.C57_unique",
    "Liner.Props.C57_nests",
    "Liner.Props.C57_safe_partial",
    "Liner.Props.C57_safe_draws_partial",
    "Liner.Props.C57_repeats",
    "Liner.Props.C57_empty_violation",
    "Liner.Props.C57_edge_violation",
    "Liner.Props.C57_wait_violation",
    "Liner.Props.C57_right_violation",
    "Liner.Props.C57_repeat_violation",
    "Liner.Props.C57_tilde_violation"
   ],
   "note": "Termination is proved in full (calls nest at most four deep from every reachable state; the equation of the source determines the result). Panics: none outside redraws and one unwrapped I/O error, for every sequence of keys each of which is calm where it is typed (unshared history); the code violates the unrestricted claim in six ways, each shown by a witness."
  },
  {
   "property": "C58",
   "status": "partial",
   "theorems": [
    "Liner.Props.C58_start",
    "Liner.Props.C58_esc",
    "Liner.Props.C58_ctrl",
    "Liner.Props.C58_shown",
    "Liner.Props.C58_cancel_partial",
    "Liner.Props.C58_tab_violation"
   ],
   "note": "Esc, Ctrl-[, the initial mode and the mode shown are proved in full. Waiting modes are given up by every key they do not take and that reaches the key map; keys handled earlier (Tab, Enter, Ctrl-R, ...) do not cancel: C58_tab_violation."
  },
  {
   "property": "C59",
   "status": "proved",
   "theorems": [
    "Liner.Props.C59_basic"
   ],
   "note": "The answer is the largest sublist of the configured words all of which start with the text."
  },
  {
   "property": "C60",
   "status": "partial",
   "theorems": [
    "Liner.Props.C60_list",
    "Liner.Props.C60_count_partial",
    "Liner.Props.C60_count_violation",
    "Liner.Props.C60_wrap_violation"
   ],
   "note": "The list writes every candidate once and in order, in rows of the computed number of columns, the chosen one highlighted; widths of the cells. Partial: the reported row count is the number of rows written unless all rows are full, when it is one too many, which makes the next redraw erase the row above; with one column a cell can be wider than the terminal."
  },
  {
   "property": "C61",
   "status": "partial",
   "theorems": [
    "Liner.Props.C61_emacs_partial",
    "Liner.Props.C61_emacs_draws_partial",
    "Liner.Props.C61_default_words",
    "Liner.Props.C61_shared_violation",
    "Liner.Props.C61_width_violation"
   ],
   "note": "Proved for histories that are not shared and terminals that do not report 0 columns: no panic outside redraws; and none in redraws either without searches, with history entries that are ASCII or of one line, and fewer than 65536 rows. The code violates the rest: `C61_shared_violation`, `C61_width_violation`, and `C42_*_violation` for redraws."
  },
  {
   "property": "C62",
   "status": "proved",
   "theorems": [
    "Liner.Props.C62_revert_all"
   ],
   "note": "For every history with reachable buffers."
  },
  {
   "property": "C63",
   "status": "partial",
   "theorems": [
    "Liner.Props.C63_names_partial",
    "Liner.Props.C63_parent",
    "Liner.Props.C63_dot_violation",
    "Liner.Props.C63_open_violation",
    "Liner.Props.C63_here_violation"
   ],
   "note": "Proved for any directory contents, working directory, case mode and order of listing, for every word that writes a path (with backslashes or in quotation marks), including paths that end in a separator or in ..; missing: . as the last name and a . or a repeated separator before the name typed. The code violates the claim for ., for an unclosed quotation mark and for bare names without a working directory."
  },
  {
   "property": "C64",
   "status": "partial",
   "theorems": [
    "Liner.Props.C64_absolute_partial",
    "Liner.Props.C64_words",
    "Liner.Props.C64_dot_violation",
    "Liner.Props.C64_quote_violation"
   ],
   "note": "Exact conditions proved: with an absolute working directory for every word; with any working directory for every word that writes a path. The code panics in the two ways shown."
  },
  {
   "property": "C65",
   "status": "partial",
   "theorems": [
    "Liner.Props.C65_extends_partial",
    "Liner.Props.C65_quote_violation",
    "Liner.Props.C65_untidy_violation"
   ],
   "note": "Proved for words written with backslashes and case-sensitive names on the paths of C63; the code violates it for quoted words, repeated separators and names that begin with a quotation mark."
  },
  {
   "property": "C66",
   "status": "partial",
   "theorems": [
    "Liner.Props.C66_fresh_emacs",
    "Liner.Props.C66_fresh_vi",
    "Liner.Props.C66_screen_emacs_partial",
    "Liner.Props.C66_screen_vi_partial",
    "Liner.Props.C66_clear_violation"
   ],
   "note": "That the last output is a redraw of what the editor holds is proved for all keys of both key maps, including searches and completion lists. What the screen shows is proved for completion lists whose last row is not full and of which two candidates fit on a row (with searches: for lines of width-one characters without newlines), characters of one, two or no columns of which none is cut by the right edge, a prompt whose last line is narrower than the terminal (lines above it stay above the editor; for them the rows below the cursor must be blank at the start), a constant width and an unshared history; Ctrl-L, which should clear the screen, does not (violation)."
  },
  {
   "property": "C67",
   "status": "partial",
   "theorems": [
    "Liner.Props.C67_enter_emacs_partial",
    "Liner.Props.C67_enter_vi_partial",
    "Liner.Props.C67_stop_emacs_partial",
    "Liner.Props.C67_stop_vi_partial",
    "Liner.Props.C67_suggestion_violation",
    "Liner.Props.C67_interrupt_violation"
   ],
   "note": "Proved for the sessions of C66 (characters of one, two or no columns, prompts of any number of lines, lists as there) when the suggestion shown ends on the row where the line ends, and for Ctrl-C and Ctrl-D outside a search, without a list and not after a backslash. With a suggestion on further rows, and for Ctrl-C after a backslash, it is false (violations)."
  },
  {
   "property": "C68",
   "status": "partial",
   "theorems": [
    "Liner.Props.C68_told_partial",
    "Liner.Props.C68_stopped_partial",
    "Liner.Props.C68_asked",
    "Liner.Props.C68_quiet",
    "Liner.Props.C68_crate",
    "Liner.Props.C68_inside_emacs",
    "Liner.Props.C68_inside_vi",
    "Liner.Props.C68_name_violation",
    "Liner.Props.C68_interrupt_violation"
   ],
   "note": "The order of the calls is proved for every completer and key; when the completer is asked, and that it changes nothing else, for completers whose events leave the editor alone (the two of the crate do); the cursor for those that use the editor's operations. Partial: the event after Ctrl-H names Backspace, and after Ctrl-C, Ctrl-D on an empty line or an I/O error there is none (violations)."
  },
  {
   "property": "C69",
   "status": "partial",
   "theorems": [
    "Liner.Props.C69_history",
    "Liner.Props.C69_newest",
    "Liner.Props.C69_newest_no_repeat",
    "Liner.Props.C69_file",
    "Liner.Props.C69_recall",
    "Liner.Props.C69_again",
    "Liner.Props.C69_screen_partial"
   ],
   "note": "The history, the file and the recalled lines are proved for every conversation (the contents of a history that is not shared, the file also when it is; the file when no duplicates are dropped; recalled lines that do not end in a backslash). What the screen shows is proved for rounds as in C66 and C67 without Ctrl-L, from an empty part of the screen; where those properties are violated, so is this one."
  },
  {
   "property": "C70",
   "status": "partial",
   "theorems": [
    "Liner.Props.C70_read",
    "Liner.Props.C70_conversation",
    "Liner.Props.C70_unbounded_violation"
   ],
   "note": "Proved for every read and conversation: nothing is ever removed from `buffer`, every read that gets past its first redraw appends to it, and so does every conversation with every line. The property itself - no growth without bound - is violated (C70_unbounded_violation, for every size)."
  },
  {
   "property": "C71",
   "status": "partial",
   "theorems": [
    "Liner.Props.C71_take",
    "Liner.Props.C71_twice",
    "Liner.Props.C71_others",
    "Liner.Props.C71_cursor_violation",
    "Liner.Props.C71_redraw",
    "Liner.Props.C71_prompt",
    "Liner.Props.C71_mode"
   ],
   "note": "The line taken is the line displayed, wherever it is kept; what else stays; the redraw afterwards; the prompt and the mode it shows after any vi keys. Partial: the cursor stays behind, so that an edit before the next redraw panics (violation), and a stored entry displayed unchanged is emptied (C29_take_exec_buffer_violation)."
  },
  {
   "property": "C72",
   "status": "partial",
   "theorems": [
    "Liner.Props.C72_commands_partial",
    "Liner.Props.C72_line_partial",
    "Liner.Props.C72_always_partial",
    "Liner.Props.C72_unique",
    "Liner.Props.C72_begun_unique",
    "Liner.Props.C72_write",
    "Liner.Props.C72_enter_violation",
    "Liner.Props.C72_moved_violation",
    "Liner.Props.C72_tilde_violation"
   ],
   "note": "A refinement: from every state of the normal mode (C72_commands_partial) and for a line from its first key (C72_line_partial) any sequence of commands that the board allows has the effect that it has on the board; for commands that need nothing (all but ; and , and operators with motions that include their target, insertions begun with cc or C, Enter and the key Right) there is no condition at all (C72_always_partial). Enter after a backslash is a command and a key for insertions, too, where no list of candidates is shown (its line break is not repeated by . or a count: C72_enter_violation). Insertions may contain Left, Right, Home, End and keys without meaning: what is typed after a movement is an insertion and a step for undo of its own; without movements an insertion is the change that dot repeats (C72_write). dd, Home, End, keys without meaning and keys given up with Esc are commands, too. The board determines text, cursor, count, last search and last change (C72_unique, C72_begun_unique); undo may or may not count a change that changed nothing. The key Right is a command, and a key for insertions, where the cursor is before the last character or the end, so that no suggestion can be taken. Not covered: Right at the end and after operators, the keys Up, Down, k and j, searches and Tab, c given up, and undo of what was done before the commands began unless the line began with them. The count that ~ leaves behind is on the board and goes into the next command, and what is typed after a movement is repeated as often as the s or c before it was to be done (violations)."
  },
  {
   "property": "C73",
   "status": "proved",
   "theorems": [
    "Liner.Props.C73_sheet",
    "Liner.Props.C73_read",
    "Liner.Props.C73_revert",
    "Liner.Props.C73_unique",
    "Liner.Props.C73_run_unique",
    "Liner.Props.C73_total"
   ],
   "note": "C73_sheet: any keys that do not leave the line give a sheet reached by the run, with the cursor between its two texts, the suggestion of the history, and the history unchanged; without Ctrl-D on an empty line and with a terminal that works there is no error, and no panic outside the redraw unless the window has no columns. C73_read: what read_line returns or fails with, for any input including errors of reading. C73_unique, C73_run_unique: the sheet determines the result. C73_total: with a working terminal and the conditions of C61 read_line returns the line, or the error, if and only if the sheet says so, unless it panics with the cursor more than 65535 rows below the prompt. C73_revert: Alt-R brings back the text at the beginning. The division into words is assumed to be the default one (E.words = getBufferWords). That the redraw does not panic is C42."
  },
  {
   "property": "C74",
   "status": "proved",
   "theorems": [
    "Liner.Props.C74_desk",
    "Liner.Props.C74_read",
    "Liner.Props.C74_aside",
    "Liner.Props.C74_unique",
    "Liner.Props.C74_run_unique",
    "Liner.Props.C74_total"
   ],
   "note": "C74_desk: any keys that do not leave the desk give the desk reached by the run, with the cursor, the suggestion and the entry shown as it says, and the history unchanged; without Ctrl-D on an empty line and with a terminal that works there is no error, and no panic outside the redraw unless the window has no columns. C74_read: what read_line returns or fails with. C74_unique, C74_run_unique: the desk determines the result. C74_total: with a working terminal and the conditions of C61, read_line returns the line, or the error, if and only if the desk says so, unless it panics with the cursor more than 65535 rows below the prompt. C74_aside: from the new line, Alt-<, any keys except Down, Ctrl-N and Alt->, then Alt-> gives the text of the new line as it was. The division into words is assumed to be the default one. A history shared with other programs (re-read when moving up) is excluded."
  },
  {
   "property": "C75",
   "status": "proved",
   "theorems": [
    "Liner.Props.C75_bench",
    "Liner.Props.C75_read",
    "Liner.Props.C75_found",
    "Liner.Props.C75_unique",
    "Liner.Props.C75_run_unique",
    "Liner.Props.C75_desk"
   ],
   "note": "C75_bench: any keys except Enter, Tab and Ctrl-C give the bench reached by the run, with the line, the cursor, the suggestion, the entry shown, the new line and the direction of the search as it says, and the history unchanged; without Ctrl-D on an empty line and with a terminal that works there is no error, and no panic outside the redraw unless the window has no columns. C75_read: what read_line returns or fails with. C75_unique, C75_run_unique: the bench determines the result. C75_found: during a search the suggestion is an entry that contains the new line, and there is one if any entry contains it. C75_desk: without searches the bench says what the desk of C74 says. The division into words is assumed to be the default one. A history shared with other programs is excluded. The redraw can panic during a search (C42), so there is no counterpart of C74_total."
  },
  {
   "property": "C76",
   "status": "partial",
   "theorems": [
    "Liner.Props.C76_table_partial",
    "Liner.Props.C76_read_partial",
    "Liner.Props.C76_unique",
    "Liner.Props.C76_run_unique",
    "Liner.Props.C76_bench",
    "Liner.Props.C76_answered",
    "Liner.Props.C76_new_line",
    "Liner.Props.C76_lost_violation"
   ],
   "note": "C76_table_partial: any keys except Enter and Ctrl-C give the table reached by the run, with the line, the cursor, the list, the suggestion, the entry shown, the new line and the direction of the search as it says, and the history unchanged; without Ctrl-D on an empty line and with a terminal that works there is no error, and no panic outside the redraw unless the window has no columns. C76_read_partial: what read_line returns or fails with. C76_unique, C76_run_unique: the table determines the result. C76_bench: without Tab the table says what the bench of C75 says. Missing: what follows a Tab without candidates during a search or on an unchanged entry of the history, where 'changes nothing' is false of the code: the entry is copied and the suggestion stays (C76_lost_violation), or the search is made again later. C76_answered: that never happens if the completer always has a candidate; C76_new_line: nor on the new line without searches. The division into words is assumed to be the default one; a history shared with other programs is excluded."
  },
  {
   "property": "C77",
   "status": "proved",
   "theorems": [
    "Liner.Props.C77_enter",
    "Liner.Props.C77_end",
    "Liner.Props.C77_stop",
    "Liner.Props.C77_exact",
    "Liner.Props.C77_unique"
   ],
   "note": "C77_enter, C77_end, C77_stop: any line that the board of C72 allows, ended by Enter, by the end of the input, by Ctrl-C or by Ctrl-D on an empty line. C77_exact: on a terminal that works a line without undo is returned exactly, or the redraw panics. C77_unique: without undo the line left is certain (with undo the board leaves open whether a change that changed nothing is a step). What is not on the board (history, searches, Tab, Right at the end) is not in the statement."
  },
  {
   "property": "C78",
   "status": "proved",
   "theorems": [
    "Liner.Props.C78_enter",
    "Liner.Props.C78_end",
    "Liner.Props.C78_stop",
    "Liner.Props.C78_search",
    "Liner.Props.C78_exact",
    "Liner.Props.C78_unique"
   ],
   "note": "C78_enter, C78_end, C78_stop: any acts that the rack allows (commands of the board, insertions begun, written in and left, Enter after a backslash, Up and Down anywhere, the suggestion taken on the new line, searches begun there whose entry is taken, during an insertion also with keys typed during the search), then Enter, the end of the input, Ctrl-C or Ctrl-D on an empty line. C78_exact: on a terminal that works without undo the line shown is returned exactly, or the redraw panics. C78_unique: without undo the line shown is certain (with undo the rack leaves open whether a change that changed nothing is a step, and whether an entry left as it was has been copied). C78_search: Enter during a search. What is not on the board (Tab, Esc during a search, keys typed during a search in normal mode, searches and Ctrl-F and Right at the end on an entry) is not in the statement."
  },
  {
   "property": "C79",
   "status": "proved",
   "theorems": [
    "Liner.Props.C79_enter",
    "Liner.Props.C79_end",
    "Liner.Props.C79_stop",
    "Liner.Props.C79_exact",
    "Liner.Props.C79_unique",
    "Liner.Props.C79_tab_unique"
   ],
   "note": "C79_enter, C79_end, C79_stop: any deeds that the tray allows (the acts of the rack of C78, Tab with any completer, Enter to take the list away), then Enter without a list, the end of the input, Ctrl-C or Ctrl-D on an empty line. C79_exact: on a terminal that works without undo the line shown is returned exactly, or the redraw panics. C79_unique: without undo the line and the list are certain. C79_tab_unique: for every line and list the tray says exactly one thing about Tab. Tab during a search and what the rack leaves out is not in the statement."
  },
  {
   "property": "C80",
   "status": "proved",
   "theorems": [
    "Liner.Props.C80_enter",
    "Liner.Props.C80_end",
    "Liner.Props.C80_stop",
    "Liner.Props.C80_exact",
    "Liner.Props.C80_found",
    "Liner.Props.C80_line",
    "Liner.Props.C80_stays",
    "Liner.Props.C80_next",
    "Liner.Props.C80_first"
   ],
   "note": "C80_enter, C80_end, C80_stop: any acts of the rack of C78 that end in an insertion on the new line, Ctrl-R or Ctrl-S, any keys of an insertion and of the search, then Enter, the end of the input, Ctrl-C or Ctrl-D on an empty line. C80_exact: on a terminal that works without undo what Enter returns is certain, or the redraw panics. C80_line: the line typed is what the keys make of it without the search. C80_found, C80_stays, C80_first, C80_next: which entry is found. Right at the end of the line takes the entry found and is an act of C78. Tab and Esc during the search, Enter after a backslash during it, and searches begun in normal mode and continued with commands are not in the statement."
  },
  {
   "property": "C81",
   "status": "proved",
   "theorems": [
    "Liner.Props.C81_agree",
    "Liner.Props.C81_events",
    "Liner.Props.C81_gets",
    "Liner.Props.C81_kept",
    "Liner.Props.C81_ctrl_h",
    "Liner.Props.C81_redo",
    "Liner.Props.C81_redo_violation"
   ],
   "note": "C81_kept and C81_gets: for every key map, state and key, whether the key gets to the key map, and what happens if it does. C81_agree and C81_events: two key maps that agree on the keys that can get to them read every line in the same way, also with a completer that works on the editor. C81_redo: the vi keys without their redo read every line in the same way; C81_redo_violation: what was undone does not come back with Ctrl-R although the key map has a redo on it. Right in vi's normal mode on an empty line with a suggestion panics (C57); it does not get to the key map either."
  },
  {
   "property": "C82",
   "status": "proved",
   "theorems": [
    "Liner.Props.C82_outcome",
    "Liner.Props.C82_line",
    "Liner.Props.C82_returns",
    "Liner.Props.C82_application",
    "Liner.Props.C82_exception"
   ],
   "note": "C82_outcome: two calls with the same keys end alike (line or error, history, files) for any two terminals and prompts, unless one of them ends with an I/O error or a panic while redrawing; C82_line and C82_returns: the cases where both, or one, return a line. C82_application: the same for a whole application of several calls. C82_exception: the exception is real, the same keys return a line on a wide terminal and panic on a narrow one with a mode indicator (C42)."
  },
  {
   "property": "C83",
   "status": "proved",
   "theorems": [
    "Liner.Props.C83_outcome",
    "Liner.Props.C83_line",
    "Liner.Props.C83_empty",
    "Liner.Props.C83_application",
    "Liner.Props.C83_needed",
    "Liner.Props.C83_letter"
   ],
   "note": "C83_outcome: two calls with the same keys, none of which looks at the history, end alike for any two histories (and files, terminals, prompts), unless one of them ends with an I/O error or a panic while redrawing; C83_line and C83_empty: the cases where both return a line, and against an empty history. C83_application: the same for several calls in a row. C83_needed: for each of the keys left out, a line that depends on the history. C83_letter: why k is left out also as a letter of the text with the vi keys."
  },
  {
   "property": "C84",
   "status": "proved",
   "theorems": [
    "Liner.Props.C84_same_keys",
    "Liner.Props.C84_line",
    "Liner.Props.C84_needed"
   ],
   "note": "C84_same_keys: for all pairs of calls with the shared keys, unless one of them ends with an I/O error or a panic while redrawing; C84_line: when both return a line. C84_needed: another key (Ctrl-A) does differ."
  },
  {
   "property": "C85",
   "status": "proved",
   "theorems": [
    "Liner.Props.C85_as_if_typed",
    "Liner.Props.C85_line",
    "Liner.Props.C85_needed"
   ],
   "note": "C85_as_if_typed: for all pairs of calls, unless one of them ends with an I/O error or a panic while redrawing; C85_line: when both return a line. C85_needed: undo does tell a given line from a typed one."
  },
  {
   "property": "C86",
   "status": "proved",
   "theorems": [
    "Liner.Props.C86_draft",
    "Liner.Props.C86_line",
    "Liner.Props.C86_needed"
   ],
   "note": "C86_draft: for all pairs of calls, unless one of them ends with an I/O error or a panic while redrawing; C86_line: when both return a line. C86_needed: undo does tell two drafts of the same line apart."
  },
  {
   "property": "C87",
   "status": "proved",
   "theorems": [
    "Liner.Props.C87_draft",
    "Liner.Props.C87_line",
    "Liner.Props.C87_needed"
   ],
   "note": "C87_draft: for all pairs of calls with any of the two key maps, unless one of them ends with an I/O error or a panic while redrawing; C87_line: when both return a line. C87_needed: outside of insert mode undo tells a given line from a typed one."
  },
  {
   "property": "C88",
   "status": "proved",
   "theorems": [
    "Liner.Props.C88_resume",
    "Liner.Props.C88_line",
    "Liner.Props.C88_needed"
   ],
   "note": "C88_resume: for all pairs of calls, unless one of them ends with an I/O error or a panic while redrawing; C88_line: when both return a line. C88_needed: undo tells two ways to the same line apart, and so does the place of the cursor."
  },
  {
   "property": "C89",
   "status": "proved",
   "theorems": [
    "Liner.Props.C89_stroll",
    "Liner.Props.C89_line",
    "Liner.Props.C89_needed"
   ],
   "note": "C89_stroll: for all pairs of calls, unless one of them ends with an I/O error or a panic while redrawing; C89_line: when both return a line. Entries may be edited on the way; what was typed there is dropped. C89_needed: coming back with Alt-> leaves a trace (the stale position of C35), and so does Ctrl-L on an entry, which forgets the way."
  },
  {
   "property": "C90",
   "status": "proved",
   "theorems": [
    "Liner.Props.C90_retell",
    "Liner.Props.C90_ends",
    "Liner.Props.C90_needed"
   ],
   "note": "C90_retell: both conversations come to their end; C90_ends: the first one does, the second does so too or was halted by its terminal (Halted). Each round is related with the history the first conversation has then (Retold, Retells). C90_needed: undo tells a draft from a given line."
  }
 ]
}