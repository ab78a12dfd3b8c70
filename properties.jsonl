{"id": "C01", "title": "Buffer edits splice exactly", "statement": "Buffer::insert(start,text) leaves the characters before start and from start on unchanged and puts text between them; remove(start,end) deletes exactly the half-open range and returns its length; truncate(n) keeps exactly the first n characters; copy_buffer makes the text equal to the other buffer's; insert_from_buffer extends the text to the other buffer's tail. The calls panic exactly when the range is out of bounds.", "quantifier": "every buffer, every start/end/num, every inserted text", "why_tests_cant": "positions, lengths and contents are unbounded; boundary positions interact with text length", "anchors": ["src/buffer.rs: Buffer::insert, remove, truncate, copy_buffer, insert_from_buffer, insert_raw, remove_raw"]}
{"id": "C02", "title": "Undo reverses the last edit", "statement": "If a buffer is edited by one in-range insert or remove and undo() is then called, undo returns true and the text is what it was before that edit.", "quantifier": "every reachable buffer, every in-range edit", "why_tests_cant": "needs every buffer content and every earlier action log", "anchors": ["src/buffer.rs: Buffer::undo, Action::undo, push_action"]}
{"id": "C03", "title": "Redo is the inverse of undo", "statement": "After any history of edits, groups, undos and redos with properly closed groups, calling undo() k times and then redo() k times gives back the same text (for every k not exceeding the number of undoable steps).", "quantifier": "every well-grouped operation history, every k", "why_tests_cant": "unbounded histories and group nestings", "anchors": ["src/buffer.rs: Buffer::undo, redo, start_undo_group, end_undo_group"]}
{"id": "C04", "title": "A closed undo group is a single undo step", "statement": "If any edits are made between start_undo_group() and the matching end_undo_group() (at least one of them), one undo() restores the text before the group and one redo() restores the text after it, including for nested groups.", "quantifier": "every buffer, every list of edits in the group, every nesting", "why_tests_cant": "group size and nesting are unbounded", "anchors": ["src/buffer.rs: Buffer::undo, redo, start_undo_group, end_undo_group"]}
{"id": "C05", "title": "Revert restores the original text", "statement": "Whatever in-range edits, groups (closed or not), undos and redos were made since the buffer was created (or since clear_actions), revert() restores the text the buffer had then, and reports false only if nothing was recorded.", "quantifier": "every in-range operation history", "why_tests_cant": "unbounded histories; loop termination", "anchors": ["src/buffer.rs: Buffer::revert, undo, clear_actions"]}
{"id": "C06", "title": "Undo, redo and revert never panic", "statement": "On a buffer reached by any sequence of in-range edits, group markers, undos, redos and reverts, undo(), redo() and revert() never index out of range.", "quantifier": "every in-range operation history", "why_tests_cant": "a single inconsistent log entry anywhere in an unbounded history would crash", "anchors": ["src/buffer.rs: Buffer::undo, redo, revert, Action::undo, Action::do_on"]}
{"id": "C07", "title": "A fresh edit discards the redo log", "statement": "After any in-range insert/remove, redo() returns false and changes nothing until another undo() happens.", "quantifier": "every reachable buffer, every edit", "why_tests_cant": "needs all reachable undo/redo states", "anchors": ["src/buffer.rs: Buffer::push_action, redo"]}
{"id": "C08", "title": "Buffer views agree with its text", "statement": "from(String)/into String round-trips; num_chars, num_bytes, as_bytes, range, char_before, char_after, lines, print and print_rest report exactly the text (lines joined by newline give the text back; print_rest(n) is the text without its first n characters and returns its byte length; char_before(0)=None, char_before(n+1)=char_after(n)).", "quantifier": "every text and index", "why_tests_cant": "all Unicode texts and positions", "anchors": ["src/buffer.rs: From<String>, From<Buffer>, num_chars, num_bytes, range, char_before, char_after, lines, print_rest, as_bytes"]}
{"id": "C09", "title": "Prefix and substring tests", "statement": "a.starts_with(b) holds exactly when b is a non-empty proper prefix of a; a.contains(b) holds exactly when b is non-empty and occurs as a contiguous block in a.", "quantifier": "every pair of texts", "why_tests_cant": "all pairs of texts", "anchors": ["src/buffer.rs: Buffer::starts_with, Buffer::contains"]}
{"id": "C10", "title": "Last argument", "statement": "last_arg() is the last maximal run of non-space characters in the text, or None when the text has only spaces.", "quantifier": "every text", "why_tests_cant": "all texts", "anchors": ["src/buffer.rs: Buffer::last_arg"]}
{"id": "C11", "title": "Word division", "statement": "The default word divider returns words in order, non-empty, disjoint, inside the buffer; each word begins with a character that is neither space nor backslash, contains no unescaped space, ends at the end of the text or just before an unescaped space, and every character outside all words is a space or a backslash.", "quantifier": "every text", "why_tests_cant": "all texts with arbitrary escapes", "anchors": ["src/context.rs: get_buffer_words"]}
{"id": "C12", "title": "Cursor classification against words", "statement": "CursorPosition::get reports OnWordLeftEdge/OnWordRightEdge/InWord(i) exactly when the cursor is at the start of / at the end of / strictly inside word i, and otherwise InSpace with the nearest word on each side (None when there is none).", "quantifier": "every cursor and every ordered word list", "why_tests_cant": "all word lists", "anchors": ["src/editor.rs: CursorPosition::get"]}
{"id": "C13", "title": "Longest common prefix of completions", "statement": "find_longest_common_prefix returns None for no words; for one word that word; for more it returns the non-empty common prefix that every other common prefix is a prefix of, or None when there is no non-empty common prefix.", "quantifier": "every list of words", "why_tests_cant": "all lists of words", "anchors": ["src/util.rs: find_longest_common_prefix"]}
{"id": "C14", "title": "Prompt measurement strips escapes", "statement": "remove_codes returns text without ESC unchanged, never outputs ESC, is idempotent, deletes exactly CSI (ESC [ ... letter), OSC (ESC ] ... BEL) and two-character escapes and keeps every other character in order; handle_prompt returns the part after the last newline.", "quantifier": "every string", "why_tests_cant": "all strings and nested/unterminated sequences", "anchors": ["src/util.rs: remove_codes, handle_prompt, last_prompt_line_width"]}
{"id": "C15", "title": "History push keeps the newest entries in order, bounded", "statement": "After any sequence of pushes, the in-memory history never holds more than max_buffers_size entries and consists of the most recent accepted pushes in push order.", "quantifier": "every push sequence, every limit", "why_tests_cant": "unbounded push sequences and all limits", "anchors": ["src/history.rs: History::push, set_max_buffers_size"]}
{"id": "C16", "title": "No adjacent duplicates", "statement": "With append_duplicate_entries=false, pushing a line equal to the newest entry changes nothing, and a history built by pushes has no two adjacent equal entries; with true every push is kept.", "quantifier": "every push sequence", "why_tests_cant": "all push sequences", "anchors": ["src/history.rs: History::push, append_duplicate_entries"]}
{"id": "C17", "title": "Newest prefix match", "statement": "get_newest_match(pos,b) returns the greatest index below pos (or below the length) whose entry has b as a non-empty proper prefix, and None exactly when there is no such entry.", "quantifier": "every history, position and text", "why_tests_cant": "all histories", "anchors": ["src/history.rs: get_newest_match, get_match"]}
{"id": "C18", "title": "Prefix/substring subset for history navigation", "statement": "get_history_subset(b) lists first, in ascending order, exactly the entries that contain b but neither equal it nor start with it, and then, in ascending order, exactly the entries that properly start with b; no index occurs twice.", "quantifier": "every history and text", "why_tests_cant": "all histories", "anchors": ["src/history.rs: get_history_subset"]}
{"id": "C19", "title": "Incremental-search index", "statement": "search_index(b) is the ascending list of exactly those entries that contain b (nothing for an empty b).", "quantifier": "every history and text", "why_tests_cant": "all histories", "anchors": ["src/history.rs: search_index"]}
{"id": "C20", "title": "Saved history loads back", "statement": "If the entries contain no newline, do not start with '#' and do not end in a carriage return, and there are at most max_file_size of them, then committing to a file and loading that file into any History with the same limits and load_duplicates=true gives back exactly the same entries, and the reported size is the file length in bytes.", "quantifier": "every list of entries (any Unicode)", "why_tests_cant": "all entry lists; byte-level encoding", "anchors": ["src/history.rs: commit_to_file_path, overwrite_history, load_history_file, truncate"]}
{"id": "C21", "title": "Loading a history file", "statement": "Loading replaces (append=false) or extends (append=true) the history with the file's lines in order, skipping lines that start with '#', stops at the first undecodable line keeping what was read, and keeps only the newest max_file_size entries; load_history skips re-reading only when the file length equals the remembered length.", "quantifier": "every file content, every prior history", "why_tests_cant": "all byte strings", "anchors": ["src/history.rs: load_history, load_history_file_test, truncate"]}
{"id": "C22", "title": "Loading without duplicates keeps the newest occurrence", "statement": "With load_duplicates=false, after a load no text occurs twice, and the survivors are exactly the last occurrences in their original order.", "quantifier": "every file content", "why_tests_cant": "all files", "anchors": ["src/history.rs: load_history_file_test, remove_duplicates"]}
{"id": "C23", "title": "Incremental append records every accepted line", "statement": "With inc_append and a writable history file, each push that is not suppressed as a duplicate appends exactly that line and a newline to the file, so after any number of pushes the file is the old content followed by all accepted lines in order.", "quantifier": "every push sequence, every configuration", "why_tests_cant": "a loss may occur only at the n-th write", "anchors": ["src/history.rs: History::push, compaction_writes"]}
{"id": "C24", "title": "History-file compaction keeps the newest distinct lines", "statement": "Compacting the history file never invents or reorders lines: the result lists, in order, the last occurrence of each distinct non-comment line among the newest max_file_size lines.", "quantifier": "every file content", "why_tests_cant": "all files", "anchors": ["src/history.rs: deduplicate_history_file, push"]}
{"id": "C25", "title": "Concurrent sessions lose no lines", "statement": "Any number of sessions with inc_append and load_duplicates=true pushing to one history file under any interleaving leave a file that contains the initial content followed by every accepted line exactly once in schedule order, and each session's own lines in its order.", "quantifier": "every number of sessions, every interleaving, every pushed text", "why_tests_cant": "all schedules", "anchors": ["src/history.rs: History::push, load_history"]}
{"id": "C26", "title": "A crash while saving leaves a prefix", "statement": "If the process dies at any point while the history file is being rewritten, the file is a byte prefix of the new content, so loading it yields a prefix of the saved entries (the last one possibly cut).", "quantifier": "every entry list, every crash point", "why_tests_cant": "all crash points", "anchors": ["src/history.rs: overwrite_history"]}
{"id": "C27", "title": "Shared history picks up other sessions' lines", "statement": "With share and inc_append, when history navigation or search begins, the in-memory history shows every line other sessions appended since the last refresh.", "quantifier": "every interleaving of appends", "why_tests_cant": "all interleavings; size-based staleness test", "anchors": ["src/history.rs: load_history, push, file_size; src/editor.rs: freshen_history"]}
{"id": "C28", "title": "Cursor stays inside the line", "statement": "After every editor operation and every key the cursor lies between 0 and the number of characters of the current line.", "quantifier": "every sequence of editor operations, every history, every terminal behaviour", "why_tests_cant": "unbounded operation sequences", "anchors": ["src/editor.rs: Editor (all pub operations), display_impl"]}
{"id": "C29", "title": "Editing never modifies stored history", "statement": "No sequence of keys or editing operations, including edits made while a history entry is displayed, changes any stored history entry (only an explicit reload of a shared file replaces them).", "quantifier": "every key sequence", "why_tests_cant": "unbounded key sequences", "anchors": ["src/editor.rs: cur_buf_mut!, hist_buf; src/context.rs: read_line"]}
{"id": "C30", "title": "Editing operations act exactly at the cursor", "statement": "insert_*_after_cursor, delete_before_cursor, delete_after_cursor, delete_all_before_cursor, delete_all_after_cursor, delete_until and delete_until_inclusive change exactly the characters they name, leave all others and place the cursor right after the inserted text or at the start of the deleted range.", "quantifier": "every line, cursor and argument", "why_tests_cant": "all texts and cursors", "anchors": ["src/editor.rs: insert_chars_after_cursor, delete_before_cursor, delete_after_cursor, delete_all_before_cursor, delete_all_after_cursor, delete_until, delete_until_inclusive"]}
{"id": "C31", "title": "Cursor motions clamp and keep text", "statement": "move_cursor_left/right/to/start/end never change the text and move the cursor by exactly the requested amount clamped to the line (to the last character when no_eol is set).", "quantifier": "every line, cursor and argument", "why_tests_cant": "all texts and cursors", "anchors": ["src/editor.rs: move_cursor_left, move_cursor_right, move_cursor_to, move_cursor_to_start_of_line, move_cursor_to_end_of_line"]}
{"id": "C32", "title": "Editor undo/redo/revert", "statement": "Editor undo/redo/revert apply the buffer operation to the current line, report whether something was recorded, and put the cursor at the end of the line when they did; on the new line, revert restores the initial text.", "quantifier": "every editor state", "why_tests_cant": "all action logs", "anchors": ["src/editor.rs: undo, redo, revert"]}
{"id": "C33", "title": "Enter finishes or continues the line", "statement": "handle_newline: when a completion list is shown it only dismisses it; when the character before the cursor is a backslash it inserts a newline and continues; otherwise it finishes with the cursor at the end and the text unchanged.", "quantifier": "every editor state outside search", "why_tests_cant": "all states", "anchors": ["src/editor.rs: handle_newline"]}
{"id": "C34", "title": "History navigation on an empty line", "statement": "With nothing typed, the k-th move_up shows the k-th newest entry (stopping at the oldest), move_down retraces the path, and going down past the newest returns to the empty new line.", "quantifier": "every history and every k", "why_tests_cant": "unbounded histories and key counts", "anchors": ["src/editor.rs: move_up, move_down"]}
{"id": "C35", "title": "History navigation with typed text", "statement": "With text typed, move_up/move_down visit exactly the entries of get_history_subset for that text, newest position first, and going down past the last returns to the typed text unchanged.", "quantifier": "every history and typed text", "why_tests_cant": "unbounded histories", "anchors": ["src/editor.rs: move_up, move_down"]}
{"id": "C36", "title": "Incremental search", "statement": "Starting a search selects the newest (reverse) or oldest (forward) entry containing the typed pattern; continuing moves cyclically through all matches; the selected entry always contains the pattern; after n continuations in one direction over n matches the selection is back where it was.", "quantifier": "every history, pattern and number of steps", "why_tests_cant": "unbounded", "anchors": ["src/editor.rs: search, refresh_search, search_history_loc"]}
{"id": "C37", "title": "Autosuggestion extends what is typed", "statement": "Outside search, while editing the new line, the autosuggestion is the newest history entry that properly extends the typed non-empty text; none is shown when there is no such entry or nothing is typed.", "quantifier": "every editor state", "why_tests_cant": "all histories and texts", "anchors": ["src/editor.rs: current_autosuggestion, display"]}
{"id": "C38", "title": "Accepting a suggestion", "statement": "accept_autosuggestion makes the current line equal to the suggestion (cursor at its end, search ended), and leaves the text unchanged when there is none; it never panics. Ctrl-F takes the suggestion wherever the cursor is; Right takes it exactly when the cursor is at the end of the line (in vi normal mode: on its last character), and otherwise is an ordinary key.", "quantifier": "every reachable editor state", "why_tests_cant": "all states", "anchors": ["src/editor.rs: accept_autosuggestion, cursor_is_at_end_of_line", "src/keymap/mod.rs: handle_key"]}
{"id": "C39", "title": "First Tab completes correctly", "statement": "With no list shown: no candidates changes nothing; one candidate replaces the word before the cursor by it; several candidates whose longest common prefix extends the word replace the word by that prefix; otherwise the sorted deduplicated list is shown and the text is unchanged.", "quantifier": "every editor state, every candidate list", "why_tests_cant": "all candidate lists", "anchors": ["src/editor.rs: complete; src/util.rs: find_longest_common_prefix"]}
{"id": "C40", "title": "Tab cycles through candidates", "statement": "While a list of n single-word candidates is shown, the k-th further Tab makes the word before the cursor equal to candidate (k-1) mod n, leaving the rest of the line unchanged.", "quantifier": "every candidate list, every k", "why_tests_cant": "unbounded presses", "anchors": ["src/editor.rs: complete"]}
{"id": "C41", "title": "Deleting the previous word", "statement": "delete_word_before_cursor removes exactly the characters from the start of the word before (or around) the cursor to the cursor, optionally including the spaces in between, and nothing when there is no such word.", "quantifier": "every line and cursor", "why_tests_cant": "all texts", "anchors": ["src/editor.rs: delete_word_before_cursor, get_word_before_cursor"]}
{"id": "C42", "title": "Redraw never aborts", "statement": "Redrawing the line never panics, for any prompt, line, history, suggestion, search state and terminal width.", "quantifier": "every reachable editor state and width", "why_tests_cant": "all Unicode texts and widths", "anchors": ["src/editor.rs: display_impl"]}
{"id": "C43", "title": "Redraw places the terminal cursor at the editing position", "statement": "The output of display, interpreted by a terminal of the given width on which characters take one, two or no columns, shows prompt and line and leaves the terminal cursor on the row and column of the editing cursor, and the next redraw starts from the prompt's first row.", "quantifier": "every prompt, line, cursor and width", "why_tests_cant": "all layouts", "anchors": ["src/editor.rs: display_impl, calc_width, term_cursor_line"]}
{"id": "C44", "title": "Ctrl-C and Ctrl-D end the read", "statement": "Ctrl-C always makes read_line fail with Interrupted; Ctrl-D fails with UnexpectedEof exactly when the current line is empty and otherwise is an ordinary key; neither changes the stored history.", "quantifier": "every editor state", "why_tests_cant": "all states", "anchors": ["src/keymap/mod.rs: handle_key"]}
{"id": "C45", "title": "read_line returns the edited line", "statement": "read_line returns exactly the text of the current line when Enter finished it or input ended, without the newline, and the initial buffer is the starting text with the cursor at its end.", "quantifier": "every key stream and initial buffer", "why_tests_cant": "unbounded key streams", "anchors": ["src/context.rs: read_line_with_init_buffer, handle_keys; src/editor.rs: From<Editor> for String"]}
{"id": "C46", "title": "Emacs editing keys behave like a two-sided text", "statement": "Outside search and completion, every sequence of Emacs editing keys (characters, arrows, Home/End, Backspace/Delete, Ctrl-A/E/B/F/D/H/U/K, suggestion acceptance) transforms the line and cursor exactly as the obvious left/right text model does.", "quantifier": "every key sequence", "why_tests_cant": "unbounded key sequences", "anchors": ["src/keymap/emacs.rs: Emacs::handle_key_core; src/keymap/mod.rs: handle_key"]}
{"id": "C47", "title": "Emacs word motions", "statement": "Alt-F moves to the end of the current or next word, Alt-B to the start of the current or previous word, staying put when there is none.", "quantifier": "every line and cursor", "why_tests_cant": "all texts", "anchors": ["src/keymap/emacs.rs: emacs_move_word"]}
{"id": "C48", "title": "Alt-. inserts last arguments", "statement": "The first Alt-. inserts the last argument of the newest (or current) history entry at the cursor; each further Alt-. replaces it by that of the next older entry, and at the oldest entry it stays.", "quantifier": "every history and number of presses", "why_tests_cant": "unbounded presses", "anchors": ["src/keymap/emacs.rs: handle_last_arg_fetch"]}
{"id": "C49", "title": "Vi normal mode keeps the cursor on a character", "statement": "In vi normal mode, after every key the cursor is on a character of the line (position below its length) or at 0 on an empty line.", "quantifier": "every key sequence", "why_tests_cant": "unbounded key sequences", "anchors": ["src/keymap/vi.rs: handle_key_core; src/editor.rs: no_eol, display_impl"]}
{"id": "C50", "title": "Vi character search", "statement": "f/t/F/T c with a count moves to (or just before/after) exactly the count-th occurrence of c in that direction, and does not move when there are fewer; ';' and ',' repeat it in the same and the opposite direction.", "quantifier": "every line, cursor, character and count", "why_tests_cant": "all texts", "anchors": ["src/keymap/vi.rs: find_char, find_char_rev, handle_key_move_to_char"]}
{"id": "C51", "title": "Vi word motions", "statement": "w/W/b/B/e/E/ge/gE go to the next/previous start/end of a (keyword or whitespace-separated) word as described by vi, and never leave the line.", "quantifier": "every line, cursor and count", "why_tests_cant": "all texts", "anchors": ["src/keymap/vi.rs: vi_move_word, vi_move_word_end"]}
{"id": "C52", "title": "Vi operators delete exactly the moved-over text", "statement": "d and c followed by a motion delete exactly the text between the cursor before and after the motion (inclusive for f/t/ge), and c then enters insert mode.", "quantifier": "every line, cursor and motion", "why_tests_cant": "all texts and motions", "anchors": ["src/keymap/vi.rs: handle_key_delete_or_change, pop_mode_after_movement"]}
{"id": "C53", "title": "Vi counts", "statement": "Digits accumulate to the decimal count, saturating at u32::MAX without overflow; operator and motion counts multiply (saturating); counts never make a motion leave the line.", "quantifier": "every digit sequence", "why_tests_cant": "unbounded digit sequences", "anchors": ["src/keymap/vi.rs: handle_key_normal, handle_key_delete_or_change, move_count"]}
{"id": "C54", "title": "Vi character commands", "statement": "x deletes count characters at the cursor (at most to the end of the line); s does so and enters insert mode; D/C delete to the end; r c replaces exactly count characters or nothing; ~ toggles case of count characters; dd empties the line.", "quantifier": "every line, cursor and count", "why_tests_cant": "all texts", "anchors": ["src/keymap/vi.rs: handle_key_normal, handle_key_replace, handle_key_delete_or_change"]}
{"id": "C55", "title": "Vi undo groups", "statement": "Everything typed in one insert session is undone by a single u, and undo never undoes more than one command.", "quantifier": "every key sequence", "why_tests_cant": "unbounded sessions", "anchors": ["src/keymap/vi.rs: set_mode_preserve_last, pop_mode, handle_key_insert"]}
{"id": "C56", "title": "Vi dot repeats the last change", "statement": "'.' performs the last change again at the current cursor (with its count, or the count given) and leaves the editor in normal mode.", "quantifier": "every recorded change and line", "why_tests_cant": "all recorded commands", "anchors": ["src/keymap/vi.rs: repeat"]}
{"id": "C57", "title": "Vi key handling terminates without panic", "statement": "Every key sequence in vi mode is processed in finitely many steps and never panics or reaches unreachable!().", "quantifier": "every key sequence", "why_tests_cant": "recursion through repeat, unbounded key sequences", "anchors": ["src/keymap/vi.rs: handle_key_core, repeat"]}
{"id": "C58", "title": "Vi mode stack", "statement": "Esc always returns to normal mode from insert mode, pending operators and pending character searches are cancelled by keys they do not accept, and the mode shown in the prompt is the current mode.", "quantifier": "every key sequence", "why_tests_cant": "all mode nestings", "anchors": ["src/keymap/vi.rs: ModeStack, normal_mode_abort, set_editor_mode; src/editor.rs: set_vi_mode, set_prompt"]}
{"id": "C59", "title": "Basic completion", "statement": "BasicCompleter returns exactly the configured words that start with the given text, in order.", "quantifier": "every word list and text", "why_tests_cant": "all lists", "anchors": ["src/complete.rs: BasicCompleter::completions"]}
{"id": "C60", "title": "Completion list layout", "statement": "The completion list prints every candidate exactly once in order, with at most the computed number of columns per row, and reports a row count that matches what was printed.", "quantifier": "every candidate list and width", "why_tests_cant": "all lists and widths", "anchors": ["src/editor.rs: print_completion_list"]}
{"id": "C61", "title": "The Emacs keys never abort", "statement": "read_line with the Emacs key map never panics: no key sequence, with any prompt, initial buffer, history, files, completer answers and I/O failures, makes an operation on the line, the history or the key map index out of range, underflow or unwrap a None; and outside a search no redraw panics either.", "quantifier": "every input, history, prompt, initial buffer, word divider with separated words, terminal behaviour", "why_tests_cant": "the panics depend on combinations of history position, cursor, suggestion and search state over unbounded key sequences; tests try a few", "anchors": ["src/context.rs: read_line_with_init_buffer, handle_keys", "src/keymap/mod.rs: handle_key", "src/keymap/emacs.rs:26-125", "src/editor.rs:255-1177"]}
{"id": "C62", "title": "revert_all_history restores every entry", "statement": "EditorContext::revert_all_history gives every history entry the text it was created with, leaves nothing to undo in it, and changes nothing else of the history; it never panics.", "quantifier": "every history whose entries were made and edited through Buffer's API", "why_tests_cant": "unbounded number of entries, each with an arbitrary edit log", "anchors": ["src/context.rs: revert_all_history", "src/buffer.rs: Buffer::revert"]}
{"id": "C63", "title": "Filename completion offers exactly the matching names", "statement": "FilenameCompleter::completions(word) lists, for a word that stands for a path, exactly the entries of the directory part of the path (relative to the working directory) whose names begin with the last name of the path, compared in the configured case mode, in the order of the directory listing: each is the path typed with the name completed, spaces escaped, and a separator if it is a directory. After a trailing separator or `..` every entry is listed; if the directory cannot be read nothing is.", "quantifier": "every word, working directory, case mode, file system", "why_tests_cant": "words, paths and directory contents are unbounded; the result depends on how separators, dots, quotation marks and spaces interact", "anchors": ["src/complete.rs:57-160"]}
{"id": "C64", "title": "Filename completion never panics", "statement": "FilenameCompleter::completions returns for every word, working directory and file system.", "quantifier": "every word, working directory, case mode, file system", "why_tests_cant": "the slices and the unwrap depend on the encoding of the last character and on the components of the path", "anchors": ["src/complete.rs:61-70", "src/complete.rs:88-112"]}
{"id": "C65", "title": "Filename completions continue the word and name the entry", "statement": "With case-sensitive names every completion offered begins with the word typed, and, read back as a word, stands for the path of an existing entry whose name continues the one typed.", "quantifier": "every word, working directory, file system", "why_tests_cant": "the round trip of escaping has to hold for all names", "anchors": ["src/complete.rs:61-70", "src/complete.rs:130-157"]}
{"id": "C66", "title": "After every key the screen is up to date", "statement": "Whenever read_line waits for a key, the last thing written to the terminal is a redraw of the prompt, line, cursor, suggestion and search the editor holds; and the screen (characters may take one, two or no columns) shows, from the row the editor began on, the list of candidates last shown if it is still there, prompt and lines, and nothing below them, with the terminal's cursor at the editing cursor; everything that was before the terminal's cursor at the start is untouched, and below it stand the lines of the prompt above the last one.", "quantifier": "every sequence of Emacs or vi keys, every initial line, history, prompt, terminal width and position of the terminal's cursor", "why_tests_cant": "every one of the editing operations must end in a redraw whose row count fits what all the earlier ones left on the screen", "anchors": ["src/editor.rs:255-307", "src/editor.rs:970-1180", "src/keymap/mod.rs:21-104"]}
{"id": "C67", "title": "A finished line stays on the screen and the cursor is below it", "statement": "When Enter finishes a line (or Ctrl-C or Ctrl-D end the read), the screen shows the prompt and the line, without the suggestion, from the row the editor was on; the terminal's cursor is in the first column of the row below the end of the line; that row and all below are blank and everything above the editor (what was before the terminal's cursor at the start, and the lines of the prompt above the last one) is untouched.", "quantifier": "every sequence of Emacs or vi keys before it, every initial line, history, prompt, terminal width and position of the terminal's cursor", "why_tests_cant": "the last redraw counts the rows of one text and draws another, so whether the cursor ends below the line depends on all widths, on where the rows end and on the mode", "anchors": ["src/editor.rs:353-376", "src/editor.rs:993-1165", "src/keymap/mod.rs:36-55"]}
{"id": "C68", "title": "A completer is told about every key", "statement": "While a line is read the completer gets, for each key in turn, an event before the key is handled and one after it naming the same key, for Tab an event before completing in between, and at most one question for candidates, exactly when no list of candidates is shown. A completer whose events do not touch the editor changes nothing else than the candidates; one whose events use the editor's operations cannot make the cursor leave the line.", "quantifier": "every completer with any state and any event handler, every key map of the crate, every sequence of keys, every history, prompt and terminal", "why_tests_cant": "the completer is code of the user that gets the editor to change in the middle of handling a key; what holds for every such program and every point where an error ends the reading cannot be sampled", "anchors": ["src/event.rs:4-23", "src/complete.rs:6-9", "src/keymap/mod.rs:19-76", "src/editor.rs:546-613", "src/context.rs:194-216"]}
{"id": "C69", "title": "A conversation of several lines keeps, recalls and shows them", "statement": "An application reads one line after the other, pushes each line returned onto the history and prints an answer; it goes on after Ctrl-C and ends at Ctrl-D; the key map may change in between. Then the history afterwards holds the earlier entries and the lines returned, in order, the newest as many as its limit allows, and nothing else; a file that is appended to grows by exactly these lines. A later read in which Up is pressed k times and then Enter returns the line returned k lines ago; Ups and Downs return the entry at that place, of those containing the initial text if there is one. The screen shows the rounds one below the other, each with its prompt, its line and its answer, and nothing else, with the cursor in the first column of the row below.", "quantifier": "any number of rounds, every key map, prompt, initial text, sequence of keys, answer, history and limit", "why_tests_cant": "what one read leaves behind (history, file, position of the cursor, rows used) is where the next one starts, so an error needs a particular sequence of rounds to show", "anchors": ["src/context.rs:130-216", "src/history.rs:236-330", "src/editor.rs:353-376", "README.md:40-60", "examples/nocomments.rs:74-123"]}
{"id": "C70", "title": "What a context collects in its `buffer`", "statement": "A context in use does not grow without bound as long as its history and the lines read do not. The public field `buffer`, into which the editor writes through the context's `fmt::Write`, does not meet this: nothing ever removes anything from it, every read that gets past the first redraw (it returns a line, or is ended by Ctrl-C or Ctrl-D) appends to it, and for every size there is a conversation of empty lines, of which the history keeps none, after which `buffer` is larger.", "quantifier": "all contexts, calls, terminals, key sequences and conversations; all sizes", "why_tests_cant": "a test makes a handful of reads and looks at the line returned; the claim is about arbitrarily long use, and nothing reads the field", "anchors": ["src/context.rs:115", "src/context.rs:254-260", "src/editor.rs:1160", "src/editor.rs:655-662"]}
{"id": "C71", "title": "Taking the line out of an editor and changing its prompt", "statement": "take_exec_buffer returns exactly the line being edited and leaves it empty, touching no other line, no stored entry that is not itself the line displayed, no file and no output; a redraw afterwards shows an empty line. set_prompt changes nothing but the prompt, which goes on showing the vi mode shown before.", "quantifier": "For all editor states (new line, edited and unedited history entries, searches), prompts and, for the mode, all vi key sequences.", "why_tests_cant": "There are three places the line can live in and every combination of old and new prompt; no test in the crate calls either function.", "anchors": ["src/editor.rs:331-338", "src/editor.rs:1190-1202"]}
{"id": "C72", "title": "The vi key map follows a simple board", "statement": "Every sequence of vi commands (digits, motions, changes with their digits and their typed text, insertions in which the cursor is moved, dd, dot, undo, Home, End, Right before the last character, Enter after a backslash, keys without meaning, and Esc in normal mode or after a key that waits for another one) does to the line, the cursor and the count exactly what the same commands do to a board that knows only a text, a cursor, a count, the last character search, the last change and the texts undo brings back; no such sequence panics in an operation. This holds from every state of the normal mode, and for a whole line from its first key.", "quantifier": "For all sequences of commands of any length, all initial lines, texts typed, counts, completers, histories and all reachable states of the normal mode.", "why_tests_cant": "The commands interact through the recorded change, the count, the last search and the undo log; a test fixes one sequence.", "anchors": ["src/keymap/vi.rs:612-863", "src/keymap/vi.rs:865-903", "src/keymap/vi.rs:904-1067", "src/keymap/vi.rs:300-420"]}
{"id": "C73", "title": "All Emacs keys on a new line follow a simple sheet", "statement": "Consider read_line with the Emacs keys and any input in which Tab, Up, Down, Ctrl-P, Ctrl-N, Ctrl-R, Ctrl-S, Alt-< and Alt-> do not occur. There is a small machine, the sheet, consisting of the text before the cursor, the text after it, a list of earlier texts and the number of a history entry, on which each key has one simple effect: characters are inserted, deletions and movements by character, line and word (a word being an element of the division of C11) change the two texts, Ctrl-F or Right at the end take the newest longer entry that begins with the text, Ctrl-X goes back to the newest earlier text, Alt-R to the oldest, Alt-. inserts the last argument of the newest entry and on repetition replaces it by that of the next older one, other keys do nothing. Every key that edits adds one earlier text. If read_line returns a line, it is the one on the sheet at the first Enter that is not preceded by a backslash, or at the end of the input; Enter after a backslash inserts a newline. If it returns an error, it is Interrupted for Ctrl-C, UnexpectedEof for Ctrl-D on an empty line, an error of reading, or the terminal failed. Nothing panics except the redraw. The sheet determines the result uniquely, and Alt-R always brings back the text the line began with.", "quantifier": "every key sequence without the named keys, every history, initial text, prompt, completer and terminal", "why_tests_cant": "all interleavings of about thirty keys with undo, suggestions and repeated Alt-., over all texts and histories", "anchors": ["src/keymap/emacs.rs: Emacs::handle_ctrl_key, handle_alt_key, handle_last_arg_fetch, handle_key_core", "src/keymap/mod.rs: KeyMap::handle_key", "src/editor.rs: handle_newline, undo, revert, accept_autosuggestion, delete_word_before_cursor", "src/context.rs: handle_keys"]}
{"id": "C74", "title": "All Emacs keys follow a simple desk with the history on it", "statement": "Consider read_line with the Emacs keys, a history that is not shared with other programs and any input in which Tab, Ctrl-R and Ctrl-S do not occur. There is a small machine, the desk: the line shown with the cursor in it, the new line and one copy of an entry (each a text with its earlier texts), the number of the entry shown (or none for the new line), whether the copy is shown instead of the entry, the list of entries met with something typed and the position reached in it. Up, Down, Ctrl-P, Ctrl-N, Alt-< and Alt-> choose the line shown: with nothing typed all entries in order, with something typed first those that begin with it and go on, newest first, and then those that contain it further on, newest first; Alt-< the oldest entry, Alt-> the new line. Every other key does to the line shown what it does to the sheet of C73, with the entry itself as suggestion while it is unchanged; an edit of an entry goes to the copy, never to the entry, and the new line is not touched by edits of entries. Making the copy counts as two edits. read_line returns the line shown on the desk at the first Enter that is not preceded by a backslash, or at the end of the input, and fails as in C73. The desk determines the result uniquely, the entries never change, and after any work on the entries Alt-> brings back the new line as it was left.", "quantifier": "every key sequence without Tab and the searches, every history that is not shared, initial text, prompt, completer and terminal", "why_tests_cant": "all interleavings of movements through the history with edits of several entries, undo across them, and stale positions, over all texts and histories", "anchors": ["src/editor.rs: move_up, move_down, move_to_start_of_history, move_to_end_of_history, cur_buf_mut!, current_autosuggestion", "src/history.rs: get_history_subset", "src/buffer.rs: copy_buffer", "src/keymap/emacs.rs: Emacs::handle_ctrl_key, handle_alt_key, handle_last_arg_fetch, handle_key_core", "src/keymap/mod.rs: KeyMap::handle_key", "src/context.rs: handle_keys"]}
{"id": "C75", "title": "All Emacs keys except Tab, with the searches, follow a simple bench", "statement": "Consider read_line with the Emacs keys, a history that is not shared with other programs and any input in which Tab does not occur. There is a small machine, the bench: the desk of C74 and the direction of the search, if there is one. Ctrl-R and Ctrl-S begin a search for the new line, which is shown: the entries met are those that contain it (none if it is empty), and the one found is the newest, or, going forward, the oldest, or the first one from the position reached before. During a search Ctrl-R, Up and Ctrl-P go to the entry found before and Ctrl-S, Down and Ctrl-N to the one after, around the ends; Ctrl-F, and Right at the end of the line, end the search with the entry found as the line, which counts as two edits; Ctrl-L ends it with the line as it is; Enter ends it with the entry found and then does what it does on the desk. Every other key does to the line shown what it does on the desk, with the entry found as suggestion, and whenever it takes the line out for writing the search is made again for the new line. read_line returns the line of the bench at the first Enter that is not preceded by a backslash, or at the end of the input, and fails as in C73. The bench determines the result uniquely, the entries never change, and at every moment of a search the suggestion is an entry that contains the new line, and there is one if any entry contains it and it is not empty.", "quantifier": "every key sequence without Tab, every history that is not shared, initial text, prompt, completer and terminal", "why_tests_cant": "all interleavings of searches with edits, undo, movements through the history, last arguments and stale search positions, over all texts and histories", "anchors": ["src/editor.rs: search, refresh_search, freshen_history, accept_autosuggestion, move_up, move_down, handle_newline, clear, display_impl", "src/history.rs: search_index, get_history_subset", "src/keymap/emacs.rs: Emacs::handle_ctrl_key, handle_alt_key, handle_last_arg_fetch", "src/keymap/mod.rs: KeyMap::handle_key", "src/context.rs: handle_keys"]}
{"id": "C76", "title": "All Emacs keys, with Tab, follow a simple table", "statement": "Consider read_line with the Emacs keys, a history that is not shared with other programs, any completer and any input. There is a small machine, the table: the bench of C75 and the list of candidates on the screen, if there is one, with the place of the candidate put in last. Tab without a list asks the completer about the word touched by the cursor; the candidates are put in order without repetition. A single one replaces the part of the word before the cursor; of several, what they all begin with does so if it goes on beyond the word; otherwise the list is shown. Tab with a list puts in the next candidate, beginning again after the last one: instead of the whole line if that is the candidate put in last, otherwise instead of the part of the word before the cursor. Each replacement is two edits for undo (one if there was no part of a word before the cursor), and during a search each of them searches again. Ctrl-R, Ctrl-S and a key that takes the suggestion leave the list; every other key takes it away and does what it does on the bench; Enter with a list ends a search and takes the list away, but does not end the line. Without candidates Tab changes nothing. read_line returns the line of the table at the first Enter without a list that is not preceded by a backslash, or at the end of the input, and fails as in C73. The table determines the result uniquely.", "quantifier": "every key sequence, every completer (which may answer differently each time), every history that is not shared, initial text, prompt and terminal", "why_tests_cant": "all interleavings of completion with searches, edits, undo and movements through the history, for all completers, texts and histories", "anchors": ["src/editor.rs: complete, get_word_before_cursor, delete_word_before_cursor, insert_chars_after_cursor, handle_newline, skip_completions_hint", "src/util.rs: find_longest_common_prefix", "src/keymap/mod.rs: KeyMap::handle_key", "src/context.rs: handle_keys"]}
{"id": "C77", "title": "What read_line returns with the vi keys", "statement": "Consider read_line with the vi keys on a line that begins with any text, and the input made of: keys of a first insertion (characters, Backspace, Delete, movements, Enter after a backslash, keys without meaning); or these, Esc and any commands that can be given on the board of C72; or these and the beginning of another insertion with keys for it and no Esc; and then Enter, whatever comes after it, or nothing more. read_line returns exactly the text left by the board or by the unfinished insertion, provided that for Enter the character before the cursor is not a backslash. Where the cursor is, in which mode the line is left, and a count that was begun do not matter. Ctrl-C instead of Enter makes it fail with Interrupted, and Ctrl-D does with UnexpectedEof if no text is left. It fails in no other way if the terminal works, and does not panic outside the redraw unless the window has no columns. Without undo the text is determined uniquely by the keys.", "quantifier": "every line of that kind, initial text, history, prompt, completer and terminal", "why_tests_cant": "all sequences of commands and insertions over all texts, with all ways of ending the line", "anchors": ["src/context.rs: handle_keys, read_line_with_init_buffer", "src/keymap/vi.rs: Vi::handle_key_core, init", "src/keymap/mod.rs: KeyMap::handle_key", "src/editor.rs: handle_newline"]}
{"id": "C78", "title": "The vi keys on the entries of the history", "statement": "Consider read_line with the vi keys on a line that begins with any text and a history that is not shared with other programs. Up and Down (in normal mode also k and j) can be given between the commands of the board of C72 and in the middle of an insertion. With nothing on the new line they lead to the entry before and after, the new line being after the last entry; with something on it they lead first to the entries that begin with it and go on, latest first, and then to those that contain it further on, latest first, and Up changes nothing if there is none left. The cursor goes to the end of the line shown, a count is dropped, and an insertion goes on as after a movement. The line shown is the entry as it is in the history: what was changed on an entry is forgotten as soon as Up or Down is given. The new line comes back as it was left, with everything that undo brings back on it. Undo on an entry brings back, after the changes made on it, the empty line, and then the copy of the entry changed before, as it was left, and what undo brings back on that. Enter after a backslash goes on with the line shown; after it Up looks for the new line among the entries again. On the new line Ctrl-F, and Right with the cursor as far to the right as it can be, take the suggestion, which is the latest entry that begins with the line and is longer, if there is one: the line becomes that entry with the cursor at its end. In normal mode this is a change of its own for undo, and a count is kept; during an insertion it belongs to the insertion for undo, but is not repeated by the dot. Up then looks for the new line among the entries again. Without a suggestion Right at the end does nothing during an insertion. On the new line Ctrl-R and Ctrl-S begin a search among the entries that contain the line, the first from the latest backwards, the second from the oldest forwards (both from the place reached if Up and Down have led to an entry with something typed), and go on in it, at the ends with the entry at the other end. Ctrl-F, and Right with the cursor of the new line at its end, take the entry found: the line becomes that entry with the cursor at its end, which for undo are two changes, the line being empty between them. During an insertion keys can also be typed while the search goes on, as in C80, before the entry found is taken; these belong to the insertion for undo and the dot. Enter during a search returns the entry found, or the line if there is none. All commands and insertions do on an entry what C72 says of a line. read_line returns exactly the line shown in the end at Enter (unless there is a backslash before the cursor) or at the end of the input, and fails as in C77. Without undo the line is determined uniquely by the keys.", "quantifier": "every sequence of commands, insertions, Up and Down suggestions taken and searches on the new line, every history that is not shared, initial text, prompt, completer and terminal", "why_tests_cant": "all interleavings of commands, unfinished insertions and steps through the history, for all texts and histories", "anchors": ["src/keymap/vi.rs: handle_key_normal, handle_key_insert", "src/keymap/mod.rs: KeyMap::handle_key", "src/editor.rs: move_up, move_down, accept_autosuggestion, current_buffer_mut", "src/history.rs: get_history_subset", "src/context.rs: handle_keys"]}
{"id": "C79", "title": "The vi keys with Tab", "statement": "Consider read_line with the vi keys on a line that begins with any text, a history that is not shared with other programs, the default division into words, and a completer that may answer each Tab differently. Tab can be given, in normal mode and in the middle of an insertion, on the new line and on entries of the history, between all that C78 allows. Without a list of candidates on the screen, Tab asks for the candidates of the word touched by the cursor: without one nothing changes; a single one replaces the part of the word before the cursor; with several what all of them begin with replaces that part if it says more than the word, and otherwise the list is shown, sorted and without repetitions. With the list, Tab puts the next candidate in place of the part of the word before the cursor (or of the whole line if that is the last candidate put in), after the last one the first again. In normal mode the cursor goes behind what was put in, or to the last character of the line if that would be its end; the removal of the part of the word and the insertion are two changes for undo, and a count that was begun is kept. During an insertion both belong to the insertion for undo and are repeated neither by the dot nor by a count. Any key but Tab, Ctrl-R, Ctrl-S and the keys that take a suggestion or an entry found takes the list away and does what it does without it; Enter takes it away and does nothing else, except that Up then looks for the new line among the entries again. read_line returns exactly the line shown in the end at Enter (if there is no list and no backslash before the cursor) or at the end of the input, and Ctrl-C and Ctrl-D on an empty line make it fail as in C77, with or without a list. What Tab does is determined uniquely in every case, and without undo so are the line and the list.", "quantifier": "every sequence of Tabs, Enters that take the list away and acts of C78, every completer, history that is not shared, initial text, prompt and terminal", "why_tests_cant": "all interleavings of completions with commands, insertions, undo and steps through the history, for all texts and all answers of the completer", "anchors": ["src/editor.rs: complete, delete_word_before_cursor, insert_chars_after_cursor, handle_newline", "src/keymap/mod.rs: KeyMap::handle_key", "src/keymap/vi.rs: Vi::handle_key_core", "src/context.rs: handle_keys"]}
{"id": "C80", "title": "Typing while searching the history with the vi keys", "statement": "Consider read_line with the vi keys on a line that begins with any text, a history that is not shared with other programs, and anything that C78 allows done before, with the new line shown and an insertion going on. Ctrl-R or Ctrl-S begins a search, and then characters can be typed and deleted and the cursor moved, with more Ctrl-R and Ctrl-S between. The line typed is exactly what the same keys without Ctrl-R and Ctrl-S make of it. After every key the entry found is one that contains the line typed; nothing is found only if the line is empty or no entry contains it. An entry found stays found after a key as long as it contains the line. Where nothing was found, a key that makes entries contain the line finds the latest of them, or the oldest if the search was begun with Ctrl-S. Where the entry found no longer contains the line, the next one in the direction in which the search was begun is found, or the oldest if there is none. Ctrl-R and Ctrl-S go on to the entry before and after among those that contain the line, at the ends with the entry at the other end. Enter returns the entry found, or the line typed if there is none (unless it ends with a backslash). The end of the input returns the line typed. Ctrl-C makes read_line fail with Interrupted, and Ctrl-D with UnexpectedEof if the line typed is empty. No other failure is possible on a terminal that works. Without undo before the search what Enter returns is determined uniquely.", "quantifier": "every sequence of acts of C78 before the search, every sequence of keys during it, every history that is not shared, initial text, prompt, completer and terminal", "why_tests_cant": "all interleavings of typed keys and search keys, for all texts and histories", "anchors": ["src/editor.rs: search, refresh_search, handle_newline, accept_autosuggestion, display_impl", "src/history.rs: get_history_subset, search_index", "src/keymap/mod.rs: KeyMap::handle_key", "src/keymap/vi.rs: handle_key_insert", "src/context.rs: handle_keys"]}
{"id": "C81", "title": "Which keys a key map gets", "statement": "Consider any key map (vi, Emacs or one's own) and any completer. Ctrl-C, Tab, Enter, Ctrl-R and Ctrl-S never get to the key map, Ctrl-H gets to it as Backspace, Ctrl-D does not get to it on an empty line, nor Ctrl-F while there is a suggestion, nor Right while there is one and the cursor is at the end of the line; what these keys do is the same for all key maps. Every other key gets to it; after it the list of candidates is taken away and the terminal flushed, and the line is not finished. So two key maps that do the same with the other keys read every line in the same way, and the redo that the vi keys have on Ctrl-R can never be used: `u` and then Ctrl-R begins a search.", "quantifier": "every key map with any state, every completer (with events or without), editor state, key and input", "why_tests_cant": "it is about all key maps and all keys in all states", "anchors": ["src/keymap/mod.rs: KeyMap::handle_key", "src/context.rs: read_line_with_init_buffer, handle_keys", "src/keymap/vi.rs: handle_key_normal"]}
{"id": "C82", "title": "What read_line returns does not depend on the terminal", "statement": "Two calls of read_line that get the same keys and the same completions, that start with the same line, history and files, and that use the same key map and the same word divider, return the same line or fail with the same error, and leave the same history and files. The size of the terminal, changes of it in between, the prompt with or without a mode indicator, the widths of characters and the colouring do not matter. The only exception: the terminal can put an end to a call, with an I/O error or with a panic while redrawing (or with a panic at the start if it says it has 0 columns). The same holds for a whole application that reads one line after the other and pushes them onto the history: two runs that come through read the same lines and leave the same history and files.", "quantifier": "every sequence of keys and read errors, both key maps, every history (shared or not), file system, initial text, completer, and every pair of terminals and prompts", "why_tests_cant": "it compares all pairs of runs, over all terminals and prompts and all keys", "anchors": ["src/editor.rs: display_impl, search_prompt, complete, print_completion_list, new_with_init_buffer", "src/context.rs: read_line_with_init_buffer, handle_keys", "src/keymap/vi.rs: handle_key_core", "src/keymap/emacs.rs: handle_key_core"]}
{"id": "C83", "title": "Keys that do not look at the history return the same line whatever the history", "statement": "Some keys show or take something from the history: Right and Ctrl-F (which take a suggestion), Ctrl-R, Ctrl-S and Up, with the Emacs keys also Ctrl-P, Alt-< and Alt-., with the vi keys also k. Two calls of read_line that get the same keys, none of which is one of these, and that start with the same line return the same line or fail with the same error, whatever the two histories are, shared or not, and whatever suggestions are shown meanwhile; so the line is the one that an empty history would give. An application that only gets such keys reads the same lines whatever history it begins with. The exception is the one of C82: the terminal can put an end to a call. Each of the keys listed does make the line depend on the history; with the vi keys this holds for k even as a letter of the text, since `.` after `cc` can repeat the letter as a command.", "quantifier": "every sequence of other keys and read errors, both key maps, every pair of histories, file systems, terminals and prompts, every initial text and completer", "why_tests_cant": "it compares all pairs of runs, over all histories and all keys", "anchors": ["src/editor.rs: display, current_autosuggestion, current_buffer, current_buffer_mut, complete, handle_newline, move_down", "src/context.rs: read_line_with_init_buffer, handle_keys", "src/keymap/mod.rs: KeyMap::handle_key", "src/keymap/vi.rs: handle_key_core, repeat", "src/keymap/emacs.rs: handle_key_core"]}
{"id": "C84", "title": "Both key maps give the same line for the keys they share", "statement": "As long as only characters (Tab and Enter among them), Backspace, Delete, Left, Right, Home, End, Ctrl-H, Ctrl-C, Ctrl-R, Ctrl-S and Ctrl-L are pressed, read_line returns the same line or the same error, and leaves the same history and the same files, with the vi keys as with the Emacs keys, unless an I/O error or a panic while redrawing ends one of the two calls.", "quantifier": "for all histories, files, initial lines, prompts, terminals and completers, and all sequences of these keys (also within searches)", "why_tests_cant": "a test compares the two key maps for a few lines; the claim relates all pairs of runs, and has to follow the state of a search in both", "anchors": ["src/keymap/emacs.rs", "src/keymap/vi.rs", "src/keymap/mod.rs", "src/editor.rs", "src/context.rs:171-192"]}
{"id": "C85", "title": "With the Emacs keys a line given at the start is as if typed", "statement": "With the Emacs keys, read_line_with_init_buffer with the line x y behaves as with the line x when y is typed first (y without tabs and newlines): whatever is pressed then, other than undo (Ctrl-X) and revert (Alt-R), the call returns the same line or the same error and leaves the same history and the same files, unless an I/O error or a panic while redrawing ends one of the two calls.", "quantifier": "for all x, y, histories, files, prompts, terminals, completers, and all further keys other than Ctrl-X and Alt-R", "why_tests_cant": "a test tries one line and a few keys; the claim relates all pairs of runs, with history navigation, suggestions, searches and completions after the given text", "anchors": ["src/context.rs:139-192", "src/editor.rs", "src/keymap/emacs.rs", "src/keymap/mod.rs"]}
{"id": "C86", "title": "With the Emacs keys a draft leaves no trace", "statement": "With the Emacs keys, two calls of read_line that begin with given lines and with keys that leave the cursor at the end of the line (typing, Backspace, Ctrl-H, Ctrl-U, Ctrl-K, Delete, End, Ctrl-E, Ctrl-L, taking the suggested entry with Right or Ctrl-F, Ctrl keys without a meaning) and that lead to the same line, go on alike: whatever is pressed then, other than undo (Ctrl-X) and revert (Alt-R), they return the same line or the same error and leave the same history and the same files, unless an I/O error or a panic while redrawing ends one of them. The line a draft leads to is computed by a function of the text alone; the suggested entry is the newest one that begins with the text and goes on.", "quantifier": "for all drafts, given lines, histories, files, prompts, terminals, completers, and all further keys other than Ctrl-X and Alt-R", "why_tests_cant": "it relates all pairs of runs; a trace left in the editor by a correction (a stale suggestion, a search position, a mark) may show only many keys later", "anchors": ["src/context.rs:139-216", "src/editor.rs", "src/keymap/emacs.rs", "src/keymap/mod.rs:19-76"]}
{"id": "C87", "title": "In vi's insert mode a draft leaves no trace, and the key map with which it was made does not matter", "statement": "Two calls of read_line, each with either key map, that begin with given lines and with keys that leave the cursor at the end of the line (those of C86; with vi not Ctrl-U, which it ignores, and Ctrl-[, which is Esc) and that lead to the same line, go on alike as long as only keys that mean the same in both key maps are pressed (those of C84): they return the same line or the same error and leave the same history and the same files, unless an I/O error or a panic while redrawing ends one of them.", "quantifier": "for all pairs of key maps, drafts, given lines, histories, files, prompts, terminals, completers, and all sequences of shared keys", "why_tests_cant": "it relates all pairs of runs; vi keeps records of its own (counts, the last command, undo groups, pending resets) that could leak into the line", "anchors": ["src/context.rs:139-216", "src/editor.rs", "src/keymap/vi.rs:536-610", "src/keymap/emacs.rs", "src/keymap/mod.rs:19-76"]}
{"id": "C88", "title": "With the Emacs keys only the text and the cursor count for what follows", "statement": "With the Emacs keys, two calls of read_line that begin with given lines and any keys that edit the new line (typing, Left, Right, Home, End, Ctrl-A, Ctrl-E, Ctrl-B, Ctrl-F, Backspace, Ctrl-H, Delete, Ctrl-D on a line that is not empty, Ctrl-U, Ctrl-K, with suggestions taken by Right and Ctrl-F) and that lead to the same text with the cursor at the same place, go on alike: whatever is pressed then, other than undo (Ctrl-X) and revert (Alt-R), they return the same line or the same error and leave the same history and the same files, unless an I/O error or a panic while redrawing ends one of them. Text and cursor are those of the small editor of C46.", "quantifier": "for all editing keys, given lines, histories, files, prompts, terminals, completers, and all further keys other than Ctrl-X and Alt-R", "why_tests_cant": "it relates all pairs of runs; what an edit leaves behind besides text and cursor may show only many keys later", "anchors": ["src/context.rs:139-216", "src/editor.rs", "src/keymap/emacs.rs", "src/keymap/mod.rs:19-76"]}
{"id": "C89", "title": "With the Emacs keys looking through the history, even editing entries, and coming back leaves no trace", "statement": "With the Emacs keys and a history that is not shared with other programs, two calls of read_line that begin with given lines, with editing keys on the new line (those of C88) and with ways up and down in the history (Up, Down, Ctrl-P, Ctrl-N) that end on the new line, with the cursor moved on the entries by Left, Home, End, Ctrl-A, Ctrl-B and Ctrl-E as well and the entries edited by characters, Backspace, Delete, Ctrl-H, Ctrl-U and Ctrl-K, and that get to the same text with the cursor at the same place, go on alike: whatever is pressed then, other than undo (Ctrl-X) and revert (Alt-R), they return the same line or the same error and leave the same history and the same files, unless an I/O error or a panic while redrawing ends one of them. How far up one can go from a line is the number of its entries (all entries for an empty line, otherwise those that contain the text and differ from it). Coming back with Alt-> instead of Down does leave a trace, and after Ctrl-L on an entry Down does not come back.", "quantifier": "for all sequences of editing and history keys that end on the new line, given lines, histories without sharing, files, prompts, terminals, completers, and all further keys other than Ctrl-X and Alt-R", "why_tests_cant": "it relates all pairs of runs with arbitrary walks through arbitrary histories; a stale position among the matching entries shows only when one goes up again", "anchors": ["src/editor.rs:665-753", "src/history.rs:335-353", "src/keymap/emacs.rs", "src/context.rs:139-216"]}
{"id": "C90", "title": "Conversations told in another way are the same conversation", "statement": "Consider an application that reads line after line, pushes each one onto the history, goes on after Ctrl-C and ends at Ctrl-D. Take two such conversations, with the same history and the same files at the start, where each round of the second is another way to do the same round of the first: the same keys on another terminal and with another prompt (C82); a given line and a draft that lead to the same line, with either key map, followed by keys that mean the same in both (C87); with the Emacs keys, any editing that leads to the same text and cursor, followed by any keys but undo and revert (C88); or, with the Emacs keys and a history that is not shared, any editing and any ways through the history that end on the new line with the same text and cursor, followed by any keys but undo and revert (C89). If both come to their end they have returned the same lines, and history and files are the same. If the first one comes to its end, so does the second, unless its terminal stops it (an I/O error or a panic while redrawing). Undo in the round of a draft does tell the two apart.", "quantifier": "for all conversations of any length, all ways to do each round, histories, files, prompts, terminals and completers", "why_tests_cant": "it relates all pairs of conversations of any length; a trace left by a detour may show only several lines later", "anchors": ["src/context.rs:139-216", "src/editor.rs", "src/history.rs:242-262", "examples/nocomments.rs:75-123"]}
