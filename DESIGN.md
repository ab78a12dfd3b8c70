# Formal model of eira-fransham/liner

The code under study is the Rust crate in /repo (version 0.7.1). It is never built or run here. The model is
plain Lean 4 under `lean/Verif/Model`, the small independent specifications are under `lean/Verif/Spec`,
helper lemmas under `lean/Verif/Proof`, and the property theorems under `lean/Verif/Props` (one file per
group of properties). `lean/Verif/Tests` replays assertions of the crate's own unit tests on the model; they
are a check of the model, not proofs of properties.

## Trusted base

* Lean's kernel (4.33.0) and the statements in `Verif/Model`, `Verif/Spec` and the theorem statements in
  `Verif/Props`.
* Axioms: every theorem named in MANIFEST.json depends on a subset of `propext`, `Classical.choice` and
  `Quot.sound`, the three standard axioms of Lean. No axiom is added, there is no `sorry`, and nothing is
  evaluated by compiled code (`native_decide`, `bv_decide`). Concrete cases use `decide +kernel`: evaluation
  inside the kernel.
* That the model describes the Rust text. Each definition cites the file and lines it stands for. The model
  was written by reading; no code was run to confirm it.

## Modelling conventions

* `Vec<char>`/`String`/`&[char]` text is `List Char` (a Lean `Char` is a Unicode scalar value, exactly as a
  Rust `char`).  File contents are `List UInt8`, with UTF-8 encoding from core Lean.
* `usize`, `u64` are `Nat`; `u32` counts of the vi keymap are `Nat` with the saturation written out. A
  subtraction that underflows is modelled as a panic (debug-build semantics). Overflow of `usize` additions
  is not modelled (texts of 2^64 characters).
* A function taking `&mut self` returns the new value.  A panic (slice out of range, `unwrap` on `None`,
  `unreachable!()`, arithmetic underflow) is an explicit outcome: `none` for buffers, `Out.panic` with the
  kind of place (`op`, `redraw`, `rows`, `ioUnwrap`) for the editor.  `io::Error` is an explicit outcome
  that keeps the state reached so far.
* Action logs are lists with the most recent action first (`Vec` with the top at the end in Rust).
* The terminal is an adversary: every query of the size and every write or flush asks an oracle indexed by a
  running number (`Ed.tick`), which answers with a width, a success or a failure. Theorems quantify over all
  oracles.
* `Key` is termion's key type; `Tty::next_key` is a list of keys or read errors with the completer's answer
  at that moment; the end of the list is `None`.
* `UnicodeWidthStr::width`, `strip_ansi_escapes`, the colouring closure, the word divider and the character
  classes of the Rust standard library are arbitrary functions (fields of `Env`). Where a theorem needs a
  fact about them it is a hypothesis. The only one about character classes: no character is both white space
  and alphanumeric (C50, C51, C52).

## What is modelled

| Rust | Lean | covered |
| --- | --- | --- |
| src/buffer.rs | Model/Buffer | all of `Buffer`, `Action`, `lines`, `last_arg`, undo groups |
| src/util.rs | Model/Util | `find_longest_common_prefix`, `remove_codes`, `last_prompt_line_width`, sizes through the oracle |
| src/history.rs | Model/History | loading, truncation, duplicates, `push`, compaction, commit, matches; files as bytes with permissions; a crash during a rewrite |
| src/context.rs | Model/KeyMap, Model/Words, Model/Editor, Model/Context | word divider, `read_line`, the key loop, `revert_all_history`; the context between reads and an application's loop around them |
| src/editor.rs | Model/Editor | every operation, the redraw (`display`) with its escape sequences as tokens, completion, search |
| src/keymap/mod.rs | Model/KeyMap | `handle_key` and the keys handled before the key map |
| src/keymap/emacs.rs | Model/Emacs | all bindings |
| src/keymap/vi.rs | Model/Vi | all modes, counts, operators, `.` |
| src/complete.rs | Model/Complete, Model/Path | `BasicCompleter`, `FilenameCompleter` with the part of std::path it uses |
| src/event.rs, trait `Completer` | Model/Event | events and completers with a state; the key loop once more with them (C68 proves that for completers that leave the editor alone it agrees with Model/KeyMap, which the other properties use) |

Not modelled: the raw-mode terminal `DefaultTty` and termion's key decoding; file names that are not
Unicode, and std::path itself (Model/Path describes its documented behaviour on Unix); the bytes of the
escape sequences termion prints beyond the tokens listed in Model/Editor; `Debug`, `Clone`, `PartialEq`
instances; `io::Error` values beyond their kind; file-system details other than existence, readability,
writability and content (links, locks, partial writes other than in the crash model); memory limits. The
recursion of vi's `.` is given a depth bound in the model; C57 proves that from every reachable state the
bound is not reached, that the model satisfies the recursive equation of the source there, and that it is
the only function that does.

## How the properties are stated

Theorems about keys quantify over whole sessions: `session km E p keys (v, initial …)` is `read_line` after
the given keys, for an arbitrary environment, history, file system, initial buffer and completer, and the
conclusion is about `text?` (the text of the current line), the cursor, the stored history (`texts`), the
returned value and the mode. `Wp m s Q R P` says what holds after success (`Q`), error (`R`) and panic (`P`)
of `m`; the theorems mostly speak about the successful runs and say separately which errors and panics can
occur. A theorem with the suffix `_partial` covers less than the English statement; a theorem with the
suffix `_violation` is a concrete witness that the code does not have the property in the remaining cases.

The screen properties (C43, C66, C67, C69) are about a terminal defined in Spec/Screen: rows and columns of
characters, a pending wrap in the last column, and characters that take one column, two or none. How many is
a parameter (`Glyphs`); the theorems ask that the editor's width function (`UnicodeWidthStr::width`, an
oracle) counts the columns of the texts at hand as the terminal does (`Counted`).

Beside the theorems stand `example`s: concrete, non-trivial states that meet their hypotheses.

`seeded/LOG.jsonl` records wrong versions of the model tried in a scratch copy, with the theorems that
failed for each.

## What the proofs showed about the code

Each of these is a proved `_violation` theorem unless marked otherwise.

* Buffer: an empty nested undo group makes `undo` take back too much (C04). An empty insert past the end
  panics later in `undo` (C06).
* History: with `share` and `max_file_size > max_buffers_size` the in-memory bound is exceeded (C15). With
  `load_duplicates = false`, every compaction drops a line, and a shared compaction can lose lines (C23).
  Lines ending in a carriage return change in compaction (C24). A rewrite of the file that keeps its length
  goes unnoticed (C27). Deduplication of multi-line entries compares them without newlines (C22).
* Editor: after an I/O error the cursor can be past the end until the next redraw (C28). `take_exec_buffer`
  empties a stored entry (C29) and leaves the cursor behind, so that an edit before the next redraw panics
  (C71). During a search with an entry selected by Alt-< edits go to a buffer that is not shown (C30, C31).
  Undo and revert on a displayed history entry empty the line (C32). Alt-> keeps an old walk or search
  position alive (C35, C36, C89_needed); Ctrl-L on an entry forgets the way, so that Down no longer comes
  back (C89_needed). Tab inside a word leaves the rest of the word behind (C39). Repeated Alt-. deletes
  typed text or inserts in the wrong place unless the cursor is at the end after a space (C48).
* Vi: Tab, Enter and Ctrl-R do not cancel a pending operator (C58). `f` that finds nothing deletes the
  character under the cursor when used with `d` (C52); inclusive motions with `d` panic on an empty line
  (C52). `d` Home and `d` End delete nothing and leave the operator waiting (C52). `2d0` waits for more
  digits (C53). `~` keeps its count (C54), so that `~.3l` moves thirteen characters (C72). After `3sx` Left
  `y` Esc the key `.` inserts `y` three times (C72). `c` followed by Esc leaves an undo group open (C55).
  `.` forgets the count of `f`-changes, stays in insert mode after `C`, knows neither `dd` nor `cc`, waits
  after `d0`, is cleared by `c` Esc and repeats half of an insertion with cursor keys (C56). These panic:
  `dfx` and `dge` on an empty line, `d` End `f`, a search while an operator waits on a history entry, Right
  in normal mode on an empty entry, `.` on a line that the repeated command has emptied, and `~` when the
  terminal fails (C57).
* Redraw: searching for `b` when the history holds `éb` panics, so does a multi-line line that an entry
  continues with a non-ASCII character, and a multi-line search with a mode indicator reaches
  `unreachable!()` (C42). With an empty prompt and an empty line every redraw goes one row down, and with an
  empty prompt later lines are indented by one column; a prompt as wide as the terminal is drawn twice;
  Enter while a longer suggestion is shown leaves the cursor on the line, to be overwritten (C43). A list of
  completions with a full last row is counted one row too high, and the next redraw erases the row above
  (C43, C60); with one column its cells are wider than the terminal (C60).
* File names: the completer panics for `.` without a working directory and for a quoted word that ends in a
  non-ASCII letter (C64). For `.` it offers the names beside the working directory; it ignores the last
  letter after an opening quotation mark; without a working directory it finds no bare name (C63). A name
  that begins with a quotation mark is not escaped; repeated separators and quotation marks disappear (C65).
* In a search that finds an entry with a short first line the terminal's cursor is put on the wrong row (C43).
* Characters of two columns: when one meets the right edge the terminal moves it to the next row, which the
  editor does not reckon with, and every further key draws the prompt once more, lower (C43). In a search
  for such a character the terminal's cursor stands inside the term (C43).
* Ctrl-L clears nothing: its codes go to `context.buffer` only, so old output stays and the prompt is drawn
  a second time lower down (C66).
* `context.buffer` is written to with every redraw and never emptied: any number of empty lines lets it grow
  without bound (C70).
* After Enter with a suggestion shown that takes more rows than the line, the terminal's cursor is on the
  line and not below it. Ctrl-C after a backslash puts a newline into the line and leaves the terminal's
  cursor there (C67).
* The event after Ctrl-H names Backspace while the event before it names Ctrl-H; Ctrl-C and Ctrl-D on an
  empty line send no event after the key (C68).
* Emacs: Ctrl-U and Ctrl-K count as an edit even where there is nothing to delete, so that the next undo
  changes nothing but moves the cursor to the end. Taking a suggestion does not end a series of Alt-`.`,
  because it never reaches `handle_key_core`: the next Alt-`.` goes on with the older entry and deletes the
  last argument of the line just taken. Alt-`.` repeated in the middle of a line deletes from the last run
  of the line to the cursor (examples beside C73).
* Entries: there is one copy for the changes of all entries, and copying into it is logged, so undo on an
  entry that was not changed empties the line, and the next undo brings back what became of another entry.
  Delete where there is nothing to delete still makes the copy and ends the suggestion. Alt-`>` does not
  give up the walk through the entries met: the next Up goes on from the old position. With something typed,
  Down is stuck on an entry reached by Alt-`<` (examples beside C74).
* Searches: an edit on an entry reached by Alt-`<` during a search goes to the copy, and the new line is
  shown again. If what is typed is found only in newer entries than the one reached, the search backward
  goes to the oldest of them. Taking the entry found counts as two edits. Ctrl-L ends the search and keeps
  what was looked for; so does the end of the input (examples beside C75).
* Tab without candidates takes the line out for writing although nothing is written (C76_lost_violation): an
  unchanged entry of the history counts as changed from then on, its suggestion stays on the screen until
  the next redraw and can still be taken, and during a search the next redraw searches again.
* In vi, Enter after a backslash writes a line break into an insertion behind the back of the recorder: a
  count and `.` repeat the text without it (C72_enter_violation: `2ia\⏎b` Esc leaves `a\⏎ba\b`).
* In vi, a count before `k`, `j`, Up or Down is dropped: `3k` goes one entry back. `u` on an entry that has
  not been changed empties the line, because the copying of the entry counts as edits of the line; the next
  `u` brings up the entry changed before, which is another one (examples beside C78).
* In vi mode `.` after an insertion in which a suggestion was taken types only what was typed, not what was
  taken (example beside C78).
* After a key that makes no entry contain the line, an incremental search has lost its place: with the
  entries `make`, `ls -l`, `make test`, `git log`, Ctrl-S `m` Ctrl-S finds `make test`, but after `q` and
  Backspace `make` is found again (example beside C80). The end of the input during a search returns the
  line typed, not the entry shown (C80_end).
* In vi normal mode Tab completes only the part of the word before the cursor, and the character under the
  cursor stays: `git co` Esc Tab with the candidate `commit` gives `git commito` (example beside C79).
* Ctrl-R is taken by the search before the key map sees it, so vi's redo cannot be reached: `u` and then
  Ctrl-R begins a search (C81_redo, C81_redo_violation).
* `cc` with the vi keys does not become the last command (C83_letter): the text typed after it is recorded
  all the same, behind whatever the last insertion was. After `x`, `cc`, a text and Esc, `.` runs the
  letters of the text as commands: with the text `k` it goes to the last entry of the history.
* `Editor::new` underflows if `Tty::width` is `Ok(0)` (C61_width_violation).
* Noted while reading, not stated as theorems: Ctrl-F at the end of an unmodified history entry accepts
  nothing but jumps.

## The properties

Status and theorems as in MANIFEST.json; the first line is the proof idea.

### C01 Buffer edits splice exactly

Buffer model; equations `take ++ text ++ drop`; panic (`none`) characterised with iff.

Status: proved. Splices and exact panic conditions for every edit.

Theorems: `C01_insert`, `C01_insert_panics_iff`, `C01_remove`, `C01_remove_panics_iff`, `C01_edits`,
`C01_truncate_panics_iff`, `C01_insert_from_buffer_panics_iff`, `C01_copy_buffer`

### C02 Undo reverses the last edit

Buffer model; refinement of undo on logs consistent with the text (`Chain` invariant).

Status: proved. For any buffer whatsoever.

Theorems: `C02_undo_last_edit`, `C02_redo_last_edit`

### C03 Redo is the inverse of undo

Log parsed as a zipper of units (edit / closed group); simulation of undo/redo on the zipper; induction on k.

Status: proved. Refinement of the logs to a snapshot list for histories whose groups are closed and whose
nested groups are non-empty; violations for other histories are proved.

Theorems: `C03_refines_snapshots`, `C03_undo_then_redo`, `C03_nested_empty_group_redo_violation`,
`C03_open_group_violation`

### C04 A closed undo group is a single undo step

Same zipper; group of arbitrary edits; nested groups as a tree type.

Status: partial. Holds when no nested group is empty (flat groups always); with an empty first nested group
the code undoes too much (violation theorem).

Theorems: `C04_group_one_step_partial`, `C04_flat_group_one_step`, `C04_empty_group_skipped`,
`C04_nested_empty_group_violation`

### C05 Revert restores the original text

`Chain init log text` invariant over all operation lists (groups need not be balanced); loop of revert by
recursion on the log.

Status: proved. Also for unbalanced groups.

Theorems: `C05_revert`

### C06 Undo, redo and revert never panic

Corollary of the same invariant (both logs consistent), for all operation lists.

Status: proved. For in-range histories; the out-of-range empty insert is a proved violation.

Theorems: `C06_no_panic`, `C06_in_range_ops_no_panic`, `C06_empty_insert_out_of_range_violation`

### C07 A fresh edit discards the redo log

Direct, plus invariance under further operations except undo.

Status: proved. 

Theorems: `C07_edit_discards_redo`, `C07_edit_discards_redo_markers`

### C08 Buffer views agree with its text

Equations on `List Char`, UTF-8 sizes from core Lean.

Status: proved. 

Theorems: `C08_roundtrip`, `C08_num_chars`, `C08_num_bytes`, `C08_range`, `C08_range_panics_iff`,
`C08_char_after`, `C08_char_after_none`, `C08_char_before`, `C08_lines`, `C08_width`, `C08_print`,
`C08_is_empty`, `C08_eq`

### C09 Prefix and substring tests

iff with `List.IsPrefix` / `List.IsInfix`.

Status: proved. 

Theorems: `C09_starts_with`, `C09_contains`

### C10 Last argument

Characterisation by decomposition `pre ++ arg ++ spaces`.

Status: proved. 

Theorems: `C10_last_arg`

### C11 Word division

Loop invariant of the scanner, list induction.

Status: proved. Existence and uniqueness of the division are both proved.

Theorems: `C11_words`, `C11_words_unique`

### C12 Cursor classification against words

Spec predicates on ordered word lists, induction with index shift.

Status: proved. 

Theorems: `C12_classifies`, `C12_classification_unique`, `C12_default_words_separated`

### C13 Longest common prefix of completions

Spec: greatest common prefix w.r.t. `<+:`; loop downward induction.

Status: proved. 

Theorems: `C13_lcp_none_and_one`, `C13_lcp`, `C13_lcp_none`

### C14 Prompt measurement strips escapes

State machine; idempotence, no-ESC, and agreement with an independent grammar of escape sequences.

Status: proved. 

Theorems: `C14_remove_codes`, `C14_remove_codes_plain`, `C14_remove_codes_no_esc`,
`C14_remove_codes_idempotent`, `C14_remove_codes_sublist`, `C14_handle_prompt`, `C14_last_prompt_line_width`

### C15 History push keeps the newest entries in order, bounded

Refinement of push sequences to `takeLast max (dedup pushes)`.

Status: partial. Exact content for every configuration in which push does not reload the shared file; the
bound for all configurations with max_file_size <= max_buffers_size. The remaining configuration breaks the
bound (violation theorem).

Theorems: `C15_push_keeps_newest_partial`, `C15_push_no_repeat_partial`, `C15_bound_partial`,
`C15_bound_after_push`, `C15_bound_violation`

### C16 No adjacent duplicates

Invariant over push lists.

Status: proved. All configurations, including reloads of a shared file.

Theorems: `C16_repeat_ignored`, `C16_no_adjacent_repeats_step`, `C16_no_adjacent_repeats`

### C17 Newest prefix match

Spec: maximal index; induction on the downward range.

Status: proved. 

Theorems: `C17_newest_match`, `C17_no_match`

### C18 Prefix/substring subset for history navigation

Explicit filter spec, Nodup.

Status: proved. 

Theorems: `C18_subset`, `C18_no_index_twice`

### C19 Incremental-search index

Explicit filter spec.

Status: proved. 

Theorems: `C19_search_index`, `C19_search_index_empty`

### C20 Saved history loads back

Byte-level file model (UTF-8 from core), round-trip by induction.

Status: proved. Also the exact file content and, for longer histories, the newest max_file_size entries. The
three conditions on entries are shown to be needed.

Theorems: `C20_commit_content`, `C20_commit_inc_append`, `C20_commit_to_file`, `C20_save_load`,
`C20_round_trip`, `C20_conditions_needed`

### C21 Loading a history file

Byte-level model of BufRead::lines and the loader; equation for the result.

Status: proved. Every file content has lines in the sense of the spec, and they are unique.

Theorems: `C21_every_file`, `C21_lines_unique`, `C21_load_lines`, `C21_reload_when_length_differs`,
`C21_skip_when_length_equal`, `C21_unreadable`, `C21_set_file_name`

### C22 Loading without duplicates keeps the newest occurrence

Spec: keep last occurrences; induction.

Status: partial. Complete for append=false; with append=true the old entries must not contain newlines
(violation theorem).

Theorems: `C22_load_keeps_last_partial`, `C22_keepLast`, `C22_keepLast_order`, `C22_multiline_violation`

### C23 Incremental append records every accepted line

Holds for load_duplicates=true (proved); for load_duplicates=false the code drops a line at each compaction:
negation proved, partial theorem kept.

Status: partial. Exact with load_duplicates=true and between compactions; with load_duplicates=false every
thirtieth line is lost (violation theorems, general and reachable).

Theorems: `C23_push_appends`, `C23_push_all_partial`, `C23_push_all_no_repeat_partial`,
`C23_compaction_loses_line_violation`, `C23_thirty_pushes_violation`, `C23_shared_compaction_violation`

### C24 History-file compaction keeps the newest distinct lines

Equation for the compacted file, any content.

Status: partial. Exact file content for all files; as lines read back, for lines not ending in a carriage
return (violation theorem).

Theorems: `C24_compaction_content`, `C24_compaction_lines_partial`, `C24_carriage_return_violation`

### C25 Concurrent sessions lose no lines

World = one file + n sessions, arbitrary schedule list; induction over the schedule.

Status: proved. Any number of sessions, any schedule of pushes and refreshes, sessions with
load_duplicates=true.

Theorems: `C25_interleavings`, `C25_order`, `C25_all_accepted`

### C26 A crash while saving leaves a prefix

Writes as a byte stream; crash point = prefix length; load of a prefix.

Status: proved. Every crash point, including inside a UTF-8 sequence.

Theorems: `C26_crash_prefix`, `C26_load_after_crash`, `C26_no_crash`

### C27 Shared history picks up other sessions' lines

Invariant `file_size = length -> in sync` over append-only schedules.

Status: partial. For sessions that only append with load_duplicates=true; a same-length rewrite goes
unnoticed (violation theorem).

Theorems: `C27_refresh_shows_others_partial`, `C27_refresh_keeps_own`, `C27_same_length_violation`

### C28 Cursor stays inside the line

Editor state machine with adversarial terminal (width/failure oracle); invariant over all operations.

Status: partial. Proved for every sequence of successful operations and for every Emacs and vi key sequence
of read_line, from any editor state, with arbitrary terminal behaviour. Does not hold after an operation
that failed with an I/O error (C28_io_error_violation); the next redraw repairs it (C28_recovers).

Theorems: `C28_ops_partial`, `C28_recovers`, `C28_emacs`, `C28_vi`, `C28_io_error_violation`

### C29 Editing never modifies stored history

Frame theorem for every operation/keymap.

Status: proved. For operation sequences and whole read_line runs, whether they succeed or fail.
take_exec_buffer, which is not an editing operation, empties a stored entry
(C29_take_exec_buffer_violation).

Theorems: `C29_ops`, `C29_ops_unshared`, `C29_emacs`, `C29_vi`, `C29_take_exec_buffer_violation`

### C30 Editing operations act exactly at the cursor

Per-operation equations on (text, cursor).

Status: partial. Proved under SearchOnNewLine (no history entry is the line being edited during a search),
which holds whenever vi or Emacs keys other than Alt-< were used (C30_hypothesis_*). After Ctrl-R Alt-<
typed text is lost (C30_search_violation). Lands moves the cursor to the last character where no_eol forbids
the end.

Theorems: `C30_insert_partial`, `C30_delete_before_partial`, `C30_delete_before_start_partial`,
`C30_delete_after_partial`, `C30_delete_after_end_partial`, `C30_delete_all_before_partial`,
`C30_delete_all_after_partial`, `C30_delete_until_forward_partial`, `C30_delete_until_backward_partial`,
`C30_delete_until_inclusive_forward_partial`, `C30_delete_until_inclusive_backward_partial`,
`C30_delete_until_outside`, `C30_hypothesis_vi`, `C30_translate`, `C30_hypothesis_emacs`,
`C30_search_violation`

### C31 Cursor motions clamp and keep text

Per-operation equations on (text, cursor).

Status: partial. Same hypothesis as C30; C31_search_violation shows a motion that changes the text.

Theorems: `C31_left_partial`, `C31_left_clamps_partial`, `C31_right_partial`, `C31_right_clamps_partial`,
`C31_to_partial`, `C31_to_clamps_partial`, `C31_start_partial`, `C31_end_partial`, `C31_search_violation`

### C32 Editor undo/redo/revert

Per-operation equations plus C05.

Status: partial. Proved for the new line and for history entries already edited. On an entry not yet edited
undo reports success and empties the line; revert of an edited entry always empties the line
(C32_*_violation).

Theorems: `C32_undo_partial`, `C32_redo_partial`, `C32_revert_partial`, `C32_undo_error`,
`C32_revert_new_line_emacs`, `C32_revert_new_line_vi`, `C32_undo_entry_violation`,
`C32_revert_entry_violation`

### C33 Enter finishes or continues the line

Case theorem.

Status: proved. C33_search describes Enter in a search; there, with a list shown, it also replaces the line
(C33_search_list_violation, outside the quantifier).

Theorems: `C33_dismisses_list`, `C33_continues`, `C33_finishes`, `C33_search_list_violation`, `C33_search`

### C34 History navigation on an empty line

Iterated move_up/move_down by induction on k.

Status: proved. For every sequence of moves from the new line; UpToDate says that a shared history equals
its file (a private history always satisfies it). Further edits of displayed entries do not matter, as the
moves discard them.

Theorems: `C34_walk`, `C34_kth`, `C34_oldest`, `C34_back`

### C35 History navigation with typed text

Same on the subset list.

Status: partial. Proved when no earlier walk is pending (historySubsetLoc = none). After Alt-> and more
typing the next Up continues the old walk (C35_stale_violation).

Theorems: `C35_walk_partial`, `C35_back_partial`, `C35_stale_violation`

### C36 Incremental search

Search state invariant, modular arithmetic on position.

Status: partial. The walk, its order and the cycle are proved for a search that starts with no entry
selected (C36_walk_partial, C36_order_partial, C36_cycle_partial). C36_near covers the other starts: the
nearest match from the entry selected before. C36_typed and C36_deleted give the selection after editing the
pattern. C36_contains_* hold after every key sequence. C36_start_violation: after Alt-> a search does not
start with the newest match.

Theorems: `C36_walk_partial`, `C36_cycle_partial`, `C36_order_partial`, `C36_near`, `C36_typed`,
`C36_deleted`, `C36_contains_emacs`, `C36_contains_vi`, `C36_contains_ops`, `C36_start_violation`

### C37 Autosuggestion extends what is typed

Theorem on display's effect.

Status: proved. For every state reached by keys or operations from a new editor, with any terminal
behaviour, whenever no search is active and the new line is displayed.

Theorems: `C37_emacs`, `C37_vi`, `C37_ops`

### C38 Accepting a suggestion

Reachable-state invariant `suggestion extends line`.

Status: partial. Proved for every state reached by Emacs or vi keys; C38_keys_emacs and C38_keys_vi_partial
say which keys take the suggestion: Ctrl-F always, Right exactly when the cursor is at the end (in the
normal mode: on the last character). Not covered: panics inside the redraw, see C42, and Right on an empty
line in the normal mode, which panics (C57_right_violation).

Theorems: `C38_keys_emacs`, `C38_keys_vi_partial`, `C38_emacs_partial`, `C38_vi_partial`

### C39 First Tab completes correctly

Case theorem on complete with an arbitrary candidate function.

Status: partial. All cases are proved for the default word divider and for every state in which a search
does not display a history entry (an invariant of reachable states, see C30) and, in vi normal mode, the
cursor is not after the last character (C49). The completer is asked about the whole word around the cursor,
but only the part before the cursor is replaced: with the cursor inside a word the rest of the word stays
behind the candidate (C39_inside_word_violation).

Theorems: `C39_none`, `C39_one`, `C39_several`, `C39_cases`, `C39_inside_word_violation`

### C40 Tab cycles through candidates

Induction on the number of presses.

Status: proved. For the default word divider; a candidate is a single word if its first character is neither
a space nor a backslash and its spaces are escaped. The part of the touched word after the cursor counts as
the rest of the line.

Theorems: `C40_cycle`, `C40_from_first`

### C41 Deleting the previous word

Equations through C11/C12.

Status: proved. For every word divider whose words come in order and are separated; C41_default for the
default divider and the words as specified in C11. Partial correctness: errors keep the text, absence of
panics is a different property.

Theorems: `C41_delete_word`, `C41_no_word`, `C41_default`, `C41_removed`

### C42 Redraw never aborts

Expected to be false as stated (byte slicing; `unreachable!`): counterexamples proved, partial theorem with
the exact side conditions.

Status: partial. Outside a search a redraw never panics, at any width (0 included), for any prompt, closure
and list of completions, if cutting a text does not widen it and the line has one line or is continued only
by ASCII entries. In a search, if widths add up, the term has one line without escape characters, the mode
indicator has no more bytes than columns and every entry is ASCII or begins with the term. Partial:
counterexamples show that these conditions cannot be dropped (entry `éb` searched with `b`; a continued
multi-line line; a mode indicator with a multi-line search).

Theorems: `C42_rows_violation`, `C42_edit_partial`, `C42_search_partial`, `C42_search_violation`,
`C42_lines_violation`, `C42_indicator_violation`

### C43 Redraw places the terminal cursor at the editing position

a terminal emulator as separate specification, with the number of columns of a character as a parameter; as
long as no character of two columns meets the right edge it agrees with a simpler one that is written column
by column (Proof/Flow), for which the layout arithmetic is done.

Status: partial. With a terminal emulator as specification, on which characters take one, two or no columns
as the editor's width function counts them: from a state whose row count is right, a redraw shows the rows
of the list of candidates if there is one, then prompt, line and suggestion, or in a search the term, its
place and the entry found; it leaves the rows above alone, puts the cursor where the text (or term) before
the editing cursor ends, and the row count is right again; opening an editor establishes this. Partial: no
character of two columns meets the right edge; width-one characters in lists of candidates and searches;
prompt not empty, a list whose last row is not full and of which two candidates fit on a row, in a search a
first line that reaches to the cursor, and (for the opening) a prompt narrower than the terminal; eight
counterexamples show what happens otherwise.

Theorems: `C43_redraw_partial`, `C43_search_partial`, `C43_start_partial`, `C43_search_violation`,
`C43_edge_violation`, `C43_search_wide_violation`, `C43_empty_violation`, `C43_indent_violation`,
`C43_wide_violation`, `C43_enter_violation`, `C43_list_violation`

### C44 Ctrl-C and Ctrl-D end the read

Case theorem on handle_key.

Status: partial. Ctrl-C (and Ctrl-D on an empty line) never succeeds, fails with exactly the stated error if
the terminal works, and leaves the stored history; the converse (no other key and no other line gives these
errors) for both key maps; Ctrl-D on a non-empty line is handed to the key map. Partial: the redraw before
returning may panic (C42).

Theorems: `C44_ctrl_c_partial`, `C44_ctrl_d_empty_partial`, `C44_ctrl_d_key`, `C44_only_emacs`, `C44_only_vi`

### C45 read_line returns the edited line

Theorem on the key loop.

Status: proved. read_line succeeds exactly when the keys run out or Enter finishes the line, and returns the
text of the current line then; Enter outside a search leaves the text alone (what it does inside a search is
C33); the initial buffer is the starting text with the cursor at its end, for both key maps.

Theorems: `C45_returns`, `C45_read_error`, `C45_enter`, `C45_start_emacs`, `C45_start_vi`

### C46 Emacs editing keys behave like a two-sided text

Simulation between the Emacs key handler and a left/right spec machine.

Status: proved. C46_step: one editing key after any session, outside a search, with the suggestion in view.
C46_run: any sequence of editing keys on a new line, from the creation of the editor, with the suggestion
computed from the history; no I/O error when the terminal works and no panic outside the redraw (see C42).

Theorems: `C46_step`, `C46_run`

### C47 Emacs word motions

Equations through C11/C12.

Status: proved. After any Emacs session outside a search; C47_moves for every word divider whose words come
in order, C47_default for the default one. No panic outside the redraw (C42).

Theorems: `C47_moves`, `C47_default`

### C48 Alt-. inserts last arguments

Equations; induction on presses.

Status: partial. The first press is proved in full (C48_first, C48_nothing). Further presses are proved when
the cursor is at the end of a line that is empty or ends in a space and no entry involved is blank; the
violation theorems show that the crate does something else otherwise.

Theorems: `C48_first`, `C48_nothing`, `C48_presses_partial`, `C48_word_violation`, `C48_middle_violation`,
`C48_blank_violation`, `C48_accept_violation`

### C49 Vi normal mode keeps the cursor on a character

Invariant over vi key sequences.

Status: proved. After any keys of a vi session, including the keys handled before the key map sees them.

Theorems: `C49_cursor`, `C49_inside`

### C50 Vi character search

Spec: n-th occurrence.

Status: proved. For every line, cursor, character and count; tab and newline cannot be searched for because
those keys never reach the key map. Assumes that no character is both white space and alphanumeric.

Theorems: `C50_search`, `C50_again`

### C51 Vi word motions

Spec: next/previous boundary positions.

Status: proved. Words are specified by positions where a word starts or ends; a motion that finds none leads
to the end (w, e) or start (b, ge) of the line and the cursor stays on the line. Assumes that no character
is both white space and alphanumeric.

Theorems: `C51_words`, `C51_leads`

### C52 Vi operators delete exactly the moved-over text

Equations on (text, cursor).

Status: partial. Proved for every line, cursor, motion and pair of counts. Left out: motions that include
their last character on an empty line, which panic (C52_empty_violation), 0 with a count
(C53_zero_violation), the key Right (which can be taken by a suggestion), and Home and End, after which the
operator goes on waiting (C52_home_violation). C52_nothing_violation: a failed f deletes the character under
the cursor.

Theorems: `C52_delete_partial`, `C52_change_partial`, `C52_zero`, `C52_empty_violation`,
`C52_nothing_violation`, `C52_home_violation`

### C53 Vi counts

Digit fold with saturation.

Status: partial. Digits, counts before motions and the product of both counts are proved without bound on
the number of digits. C53_zero_violation: a count before an operator turns a following 0 into a digit.

Theorems: `C53_zero`, `C53_digits`, `C53_counted`, `C53_zero_violation`

### C54 Vi character commands

Equations on (text, cursor).

Status: partial. Proved for every line, cursor and count: x, s, D, C, i, a, I, A, r, ~ and dd/cc.
C54_tilde_violation: ~ does not use up its count, so 3~ followed by x deletes three characters; the theorem
for ~ therefore only covers the text it leaves, not the count after it.

Theorems: `C54_x`, `C54_s`, `C54_D`, `C54_C`, `C54_insert`, `C54_replace`, `C54_tilde_partial`, `C54_line`,
`C54_tilde_violation`

### C55 Vi undo groups

Unit structure of the log (C04); aborted change leaves an open group: negation proved.

Status: partial. Proved from every state of a session: a whole command that changed the text (typed text and
Esc included) is taken back by one u, and the commands before it can then be taken back as if it had not
been given; so is what is typed before the first Esc. Text typed after a cursor key in insert mode is a
change of its own, taken back by its own u. Not covered: Tab and keys handled before the key map, the walk
through the history, and an operator c that is given up; C55_change_violation: c followed by Esc leaves an
undo group open, and the next u takes back two commands at once.

Theorems: `C55_moved`, `C55_moved_again`, `C55_undo_partial`, `C55_again_partial`, `C55_first`,
`C55_change_violation`

### C56 Vi dot repeats the last change

keys as chains of states (Chain) that a recording invariant follows (last_insert, last_command, last_count
against the change); . is then the same chain with the recorded keys; the invariant survives every key that
begins no change.

Status: partial. Proved from every state of a session: x, Delete, ~, D, r, d and c with any motion, i, a, I,
A and s with any keys that type or delete characters, with counts before and after the operator, change the
line as described by an independent specification (C56_change); after such a change, then any keys that
begin no other change and any earlier repetitions, . makes the same change at the cursor with its count or
the new one and ends in normal mode (C56_dot_partial). The code violates the rest, each with a witness: the
count of a change with f, t, F or T is forgotten; a repeated C stays in insert mode; dd and cc are not
recorded; a repeated d0 leaves the operator waiting; c and Esc forget the change before; an insertion with
cursor keys repeats only its last part; ~ keeps its count.

Theorems: `C56_change`, `C56_dot_partial`, `C56_find_violation`, `C56_changeEnd_violation`,
`C56_changeLine_violation`, `C56_deleteLine_violation`, `C56_zero_violation`, `C56_cancel_violation`,
`C56_cursor_violation`, `C56_tilde_violation`

### C57 Vi key handling terminates without panic

a record holds no Esc and the key that starts an insertion is not `.`; while a record is repeated the
recorded command is empty, so a `.` inside it repeats only what was recorded since. Calls with different
depths are compared key by key. For panics, a second invariant bounds the cursor by the mode, says where an
undo group is open, and follows the context of a waiting operator; every key keeps it unless it is one of
the listed dangerous ones.

Status: partial. Termination is proved in full (calls nest at most four deep from every reachable state; the
equation of the source determines the result). Panics: none outside redraws and one unwrapped I/O error, for
every sequence of keys each of which is calm where it is typed (unshared history); the code violates the
unrestricted claim in six ways, each shown by a witness.

Theorems: `C57_depth`, `C57_equation`, `C57_unique`, `C57_nests`, `C57_safe_partial`,
`C57_safe_draws_partial`, `C57_repeats`, `C57_empty_violation`, `C57_edge_violation`, `C57_wait_violation`,
`C57_right_violation`, `C57_repeat_violation`, `C57_tilde_violation`

### C58 Vi mode stack

Mode invariant.

Status: partial. Esc, Ctrl-[, the initial mode and the mode shown are proved in full. Waiting modes are
given up by every key they do not take and that reaches the key map; keys handled earlier (Tab, Enter,
Ctrl-R, ...) do not cancel: C58_tab_violation.

Theorems: `C58_start`, `C58_esc`, `C58_ctrl`, `C58_shown`, `C58_cancel_partial`, `C58_tab_violation`

### C59 Basic completion

List filter spec.

Status: proved. The answer is the largest sublist of the configured words all of which start with the text.

Theorems: `C59_basic`

### C60 Completion list layout

Layout arithmetic.

Status: partial. The list writes every candidate once and in order, in rows of the computed number of
columns, the chosen one highlighted; widths of the cells. Partial: the reported row count is the number of
rows written unless all rows are full, when it is one too many, which makes the next redraw erase the row
above; with one column a cell can be wider than the terminal.

Theorems: `C60_list`, `C60_count_partial`, `C60_count_violation`, `C60_wrap_violation`

### C61 The Emacs keys never abort

positions in the history in range, buffers well formed, cursor inside the line, suggestion continues the
line) kept by every operation, each shown not to panic from it, for the Emacs core with the fetched-argument
index in range and no_eol off; induction over the input. Drawing: the C42 argument at every redraw.

Status: partial. Proved for histories that are not shared and terminals that do not report 0 columns: no
panic outside redraws; and none in redraws either without searches, with history entries that are ASCII or
of one line, and fewer than 65536 rows. The code violates the rest: `C61_shared_violation`,
`C61_width_violation`, and `C42_*_violation` for redraws.

Theorems: `C61_emacs_partial`, `C61_emacs_draws_partial`, `C61_default_words`, `C61_shared_violation`,
`C61_width_violation`

### C62 revert_all_history restores every entry

C05 for every entry, by induction over the list.

Status: proved. For every history with reachable buffers.

Theorems: `C62_revert_all`

### C63 Filename completion offers exactly the matching names

The components of a path (std::path) are related to its non-trivial steps by induction over the text;
parent, file name, push and pop are computed on `d ++ n`; escaping is inverted by unescaping. Then the loop
over the entries is the filter of the specification.

Status: partial. Proved for any directory contents, working directory, case mode and order of listing, for
every word that writes a path (with backslashes or in quotation marks), including paths that end in a
separator or in ..; missing: . as the last name and a . or a repeated separator before the name typed. The
code violates the claim for ., for an unclosed quotation mark and for bare names without a working
directory.

Theorems: `C63_names_partial`, `C63_parent`, `C63_dot_violation`, `C63_open_violation`, `C63_here_violation`

### C64 Filename completion never panics

The only unwrap is of `file_name`, which fails exactly if the path has no last normal component; the only
slice that can split a character is the one before the closing quotation mark.

Status: partial. Exact conditions proved: with an absolute working directory for every word; with any
working directory for every word that writes a path. The code panics in the two ways shown.

Theorems: `C64_absolute_partial`, `C64_words`, `C64_dot_violation`, `C64_quote_violation`

### C65 Filename completions continue the word and name the entry

escaping distributes over append, so the typed word is a prefix of the offer.

Status: partial. Proved for words written with backslashes and case-sensitive names on the paths of C63; the
code violates it for quoted words, repeated separators and names that begin with a quotation mark.

Theorems: `C65_extends_partial`, `C65_quote_violation`, `C65_untidy_violation`

### C66 After every key the screen is up to date

every editor operation is shown to end in a redraw after which nothing visible changes (a predicate on
states closed under all operations is carried along); instantiated with 'the terminal's cursor is on the row
the editor believes' this gives the screen by the redraw theorem of C43.

Status: partial. That the last output is a redraw of what the editor holds is proved for all keys of both
key maps, including searches and completion lists. What the screen shows is proved for completion lists
whose last row is not full and of which two candidates fit on a row (with searches: for lines of width-one
characters without newlines), characters of one, two or no columns of which none is cut by the right edge, a
prompt whose last line is narrower than the terminal (lines above it stay above the editor; for them the
rows below the cursor must be blank at the start), a constant width and an unshared history; Ctrl-L, which
should clear the screen, does not (violation).

Theorems: `C66_fresh_emacs`, `C66_fresh_vi`, `C66_screen_emacs_partial`, `C66_screen_vi_partial`,
`C66_clear_violation`

### C67 A finished line stays on the screen and the cursor is below it

the state before Enter is one of those of C66; the last redraw is followed token by token as in C43, with
the row counted from the suggestion and the text taken from the line, and the rows below the end of the line
are shown to be blank.

Status: partial. Proved for the sessions of C66 (characters of one, two or no columns, prompts of any number
of lines, lists as there) when the suggestion shown ends on the row where the line ends, and for Ctrl-C and
Ctrl-D outside a search, without a list and not after a backslash. With a suggestion on further rows, and
for Ctrl-C after a backslash, it is false (violations).

Theorems: `C67_enter_emacs_partial`, `C67_enter_vi_partial`, `C67_stop_emacs_partial`,
`C67_stop_vi_partial`, `C67_suggestion_violation`, `C67_interrupt_violation`

### C68 A completer is told about every key

the key loop is modelled a second time with a completer that has a state and may change the editor; a
completer that writes down its calls shows the order by induction over the keys; agreement with the first
model is a simulation step by step.

Status: partial. The order of the calls is proved for every completer and key; when the completer is asked,
and that it changes nothing else, for completers whose events leave the editor alone (the two of the crate
do); the cursor for those that use the editor's operations. Partial: the event after Ctrl-H names Backspace,
and after Ctrl-C, Ctrl-D on an empty line or an I/O error there is none (violations).

Theorems: `C68_told_partial`, `C68_stopped_partial`, `C68_asked`, `C68_quiet`, `C68_crate`,
`C68_inside_emacs`, `C68_inside_vi`, `C68_name_violation`, `C68_interrupt_violation`

### C69 A conversation of several lines keeps, recalls and shows them

a context holds the history and the files between reads; a read leaves both alone, so the history is a fold
of pushes and C15 and C23 apply; the walk of Up and Down is an invariant over the keys from the opening of
the editor to Enter. For the screen the invariant is that everything from the first row to the cursor is the
text of the rounds so far and the rest is blank; one round extends it by C67, and an answer like lines above
a prompt.

Status: partial. The history, the file and the recalled lines are proved for every conversation (the
contents of a history that is not shared, the file also when it is; the file when no duplicates are dropped;
recalled lines that do not end in a backslash). What the screen shows is proved for rounds as in C66 and C67
without Ctrl-L, from an empty part of the screen; where those properties are violated, so is this one.

Theorems: `C69_history`, `C69_newest`, `C69_newest_no_repeat`, `C69_file`, `C69_recall`, `C69_again`,
`C69_screen_partial`

### C70 What a context collects in its `buffer`

`Pres` carries the prefix relation on `ctxBuf` through every operation; a redraw appends at least three
pieces (Proof/Grow.lean); induction over the rounds of a conversation; for the violation a context that
Enter on an empty line leaves alone but for `buffer`

Status: partial. Proved for every read and conversation: nothing is ever removed from `buffer`, every read
that gets past its first redraw appends to it, and so does every conversation with every line. The property
itself - no growth without bound - is violated (C70_unbounded_violation, for every size).

Theorems: `C70_read`, `C70_conversation`, `C70_unbounded_violation`

### C71 Taking the line out of an editor and changing its prompt

case distinction over where the line is kept; the mode from the invariant of C58.

Status: partial. The line taken is the line displayed, wherever it is kept; what else stays; the redraw
afterwards; the prompt and the mode it shows after any vi keys. Partial: the cursor stays behind, so that an
edit before the next redraw panics (violation), and a stored entry displayed unchanged is emptied
(C29_take_exec_buffer_violation).

Theorems: `C71_take`, `C71_twice`, `C71_others`, `C71_cursor_violation`, `C71_redraw`, `C71_prompt`,
`C71_mode`

### C72 The vi key map follows a simple board

forward simulation between the editor with the key map and the board (Spec/Board), one command at a time:
the chains of C56 for what is done, the shape of the log of C55 for what undo brings back; induction over
the commands.

Status: partial. A refinement: from every state of the normal mode (C72_commands_partial) and for a line
from its first key (C72_line_partial) any sequence of commands that the board allows has the effect that it
has on the board; for commands that need nothing (all but ; and , and operators with motions that include
their target, insertions begun with cc or C, Enter and the key Right) there is no condition at all
(C72_always_partial). Enter after a backslash is a command and a key for insertions, too, where no list of
candidates is shown (its line break is not repeated by . or a count: C72_enter_violation). Insertions may
contain Left, Right, Home, End and keys without meaning: what is typed after a movement is an insertion and
a step for undo of its own; without movements an insertion is the change that dot repeats (C72_write). dd,
Home, End, keys without meaning and keys given up with Esc are commands, too. The board determines text,
cursor, count, last search and last change (C72_unique, C72_begun_unique); undo may or may not count a
change that changed nothing. The key Right is a command, and a key for insertions, where the cursor is
before the last character or the end, so that no suggestion can be taken. Not covered: Right at the end and
after operators, the keys Up, Down, k and j, searches and Tab, c given up, and undo of what was done before
the commands began unless the line began with them. The count that ~ leaves behind is on the board and goes
into the next command, and what is typed after a movement is repeated as often as the s or c before it was
to be done (violations).

Theorems: `C72_commands_partial`, `C72_line_partial`, `C72_always_partial`, `C72_unique`,
`C72_begun_unique`, `C72_write`, `C72_enter_violation`, `C72_moved_violation`, `C72_tilde_violation`

### C73 All Emacs keys on a new line follow a simple sheet

refinement; each editor operation is shown to set the line and to log exactly so many edits (`Writes`), and
the undo log is related to the list of earlier texts by induction (`Each`); each key then turns a held sheet
into the next one, and the loop of read_line follows by induction over the input. The next sheet is also
computed by a function, which gives uniqueness; the text at the beginning is invariant under it.

Status: proved. C73_sheet: any keys that do not leave the line give a sheet reached by the run, with the
cursor between its two texts, the suggestion of the history, and the history unchanged; without Ctrl-D on an
empty line and with a terminal that works there is no error, and no panic outside the redraw unless the
window has no columns. C73_read: what read_line returns or fails with, for any input including errors of
reading. C73_unique, C73_run_unique: the sheet determines the result. C73_total: with a working terminal and
the conditions of C61 read_line returns the line, or the error, if and only if the sheet says so, unless it
panics with the cursor more than 65535 rows below the prompt. C73_revert: Alt-R brings back the text at the
beginning. The division into words is assumed to be the default one (E.words = getBufferWords). That the
redraw does not panic is C42.

Theorems: `C73_sheet`, `C73_read`, `C73_revert`, `C73_unique`, `C73_run_unique`, `C73_total`

### C74 All Emacs keys follow a simple desk with the history on it

refinement on top of C73; the proofs of the sheet hold on any line, and each operation is also shown to
leave the other line, the copy and the walk alone or to change them as said (`Beside`). The keys that move
through the history choose the line (`upLoc_desk`, `downLoc_desk`) and show it with the cursor at its end
(`turn_desk`); the loop of read_line by induction over the input. A computable step gives uniqueness.

Status: proved. C74_desk: any keys that do not leave the desk give the desk reached by the run, with the
cursor, the suggestion and the entry shown as it says, and the history unchanged; without Ctrl-D on an empty
line and with a terminal that works there is no error, and no panic outside the redraw unless the window has
no columns. C74_read: what read_line returns or fails with. C74_unique, C74_run_unique: the desk determines
the result. C74_total: with a working terminal and the conditions of C61, read_line returns the line, or the
error, if and only if the desk says so, unless it panics with the cursor more than 65535 rows below the
prompt. C74_aside: from the new line, Alt-<, any keys except Down, Ctrl-N and Alt->, then Alt-> gives the
text of the new line as it was. The division into words is assumed to be the default one. A history shared
with other programs (re-read when moving up) is excluded.

Theorems: `C74_desk`, `C74_read`, `C74_aside`, `C74_unique`, `C74_run_unique`, `C74_total`

### C75 All Emacs keys except Tab, with the searches, follow a simple bench

refinement on top of C74. During a search every operation that takes the line out for writing searches
again; each key is cut into such acts (`Acts`), each of which keeps the editor in step with the bench
(`Sought`). The search itself (`holding`, `begins`) is compared with `search_history_loc` and `search`; the
loop of read_line by induction over the input. A computable step gives uniqueness, and with it the invariant
that the entries met are those that contain the new line (`Kept`).

Status: proved. C75_bench: any keys except Enter, Tab and Ctrl-C give the bench reached by the run, with the
line, the cursor, the suggestion, the entry shown, the new line and the direction of the search as it says,
and the history unchanged; without Ctrl-D on an empty line and with a terminal that works there is no error,
and no panic outside the redraw unless the window has no columns. C75_read: what read_line returns or fails
with. C75_unique, C75_run_unique: the bench determines the result. C75_found: during a search the suggestion
is an entry that contains the new line, and there is one if any entry contains it. C75_desk: without
searches the bench says what the desk of C74 says. The division into words is assumed to be the default one.
A history shared with other programs is excluded. The redraw can panic during a search (C42), so there is no
counterpart of C74_total.

Theorems: `C75_bench`, `C75_read`, `C75_found`, `C75_unique`, `C75_run_unique`, `C75_desk`

### C76 All Emacs keys, with Tab, follow a simple table

refinement on top of C75. Tab is cut into acts on the line (deleting the part of the word before the cursor,
inserting, replacing the whole line), each of which keeps the editor in step with the bench whether there is
a search or not (`Stands.acts`, `Stands.touched`). Which keys leave the list is proved for every key map
(`key_list`). The word touched exists and is unique (`parts_ex`, `parts_unique`), hence uniqueness of the
result.

Status: partial. C76_table_partial: any keys except Enter and Ctrl-C give the table reached by the run, with
the line, the cursor, the list, the suggestion, the entry shown, the new line and the direction of the
search as it says, and the history unchanged; without Ctrl-D on an empty line and with a terminal that works
there is no error, and no panic outside the redraw unless the window has no columns. C76_read_partial: what
read_line returns or fails with. C76_unique, C76_run_unique: the table determines the result. C76_bench:
without Tab the table says what the bench of C75 says. Missing: what follows a Tab without candidates during
a search or on an unchanged entry of the history, where 'changes nothing' is false of the code: the entry is
copied and the suggestion stays (C76_lost_violation), or the search is made again later. C76_answered: that
never happens if the completer always has a candidate; C76_new_line: nor on the new line without searches.
The division into words is assumed to be the default one; a history shared with other programs is excluded.

Theorems: `C76_table_partial`, `C76_read_partial`, `C76_unique`, `C76_run_unique`, `C76_bench`,
`C76_answered`, `C76_new_line`, `C76_lost_violation`

### C77 What read_line returns with the vi keys

the refinement of C72 carried through the reading loop (`loop_press`): a key other than Enter, Tab, Ctrl-C
and Ctrl-D never ends the line (`key_usual`), whatever its effect, so the loop does what the keys do one
after the other; all the keys of the commands are of that kind (`usual_command`). Enter is proved from the
text around the cursor alone (`finish_open`).

Status: proved. C77_enter, C77_end, C77_stop: any line that the board of C72 allows, ended by Enter, by the
end of the input, by Ctrl-C or by Ctrl-D on an empty line. C77_exact: on a terminal that works a line
without undo is returned exactly, or the redraw panics. C77_unique: without undo the line left is certain
(with undo the board leaves open whether a change that changed nothing is a step). What is not on the board
(history, searches, Tab, Right at the end) is not in the statement.

Theorems: `C77_enter`, `C77_end`, `C77_stop`, `C77_exact`, `C77_unique`

### C78 The vi keys on the entries of the history

the refinement of C72 and C77 is proved for any fact about the place in the history that editing keeps
(`Around`); with the fact 'the editor is where the shelf says' (`onShelf`) it holds on every line, and Up
and Down lead from one shelf to the next (`turn_board`, `turn_insert`), the new line on the shelf keeping
its log for undo (`Past`). The copy of an entry goes on in the log of the copy before (`copy_past`). Enter
is reduced to Enter on the state that has already given up the walk (`enter_quiet`). That the suggestion is
the one of the line is the invariant of C36 (`Tied`), carried along as `Hinted`; taking it is one change in
the log (`accept_shelf`, `take_rack`). During a search the invariant is that the matches found are the
entries that hold the line and that the place is the one the specification of C33 gives (`Seeking`); nothing
else of the state changes, so that taking the entry is what the rack says (`search_rack`).

Status: proved. C78_enter, C78_end, C78_stop: any acts that the rack allows (commands of the board,
insertions begun, written in and left, Enter after a backslash, Up and Down anywhere, the suggestion taken
on the new line, searches begun there whose entry is taken, during an insertion also with keys typed during
the search), then Enter, the end of the input, Ctrl-C or Ctrl-D on an empty line. C78_exact: on a terminal
that works without undo the line shown is returned exactly, or the redraw panics. C78_unique: without undo
the line shown is certain (with undo the rack leaves open whether a change that changed nothing is a step,
and whether an entry left as it was has been copied). C78_search: Enter during a search. What is not on the
board (Tab, Esc during a search, keys typed during a search in normal mode, searches and Ctrl-F and Right at
the end on an entry) is not in the statement.

Theorems: `C78_enter`, `C78_end`, `C78_stop`, `C78_search`, `C78_exact`, `C78_unique`

### C79 The vi keys with Tab

Tab is followed through the editor with the line, the cursor and the log of changes in view (`On`, `Trail`:
each change with the text before it), for any fact about the place in the history that editing keeps
(`first_on`, `next_on`, `complete_on`); at the board the trail lengthens what undo brings back, during an
insertion it lengthens the log of the insertion (`on_board`, `on_pen`, `tab_rack`). The acts of C78 are
proved again with a list on the screen (`act_over`), and what they leave of it follows from which keys the
key map gets to see (`seen_keeps`, `act_list`). Uniqueness comes from the uniqueness of the parts of the
word touched and of the sorted candidates (`tabs_unique`).

Status: proved. C79_enter, C79_end, C79_stop: any deeds that the tray allows (the acts of the rack of C78,
Tab with any completer, Enter to take the list away), then Enter without a list, the end of the input,
Ctrl-C or Ctrl-D on an empty line. C79_exact: on a terminal that works without undo the line shown is
returned exactly, or the redraw panics. C79_unique: without undo the line and the list are certain.
C79_tab_unique: for every line and list the tray says exactly one thing about Tab. Tab during a search and
what the rack leaves out is not in the statement.

Theorems: `C79_enter`, `C79_end`, `C79_stop`, `C79_exact`, `C79_unique`, `C79_tab_unique`

### C80 Typing while searching the history with the vi keys

during the search the invariant of C78 (`Seeking`: the matches are the entries that hold the line, the place
is the one of the specification) is kept together with the insertion that goes on (`Inks`), stated for the
editor with the search left out (`Editor.quiet`). A key that changes the line marks the buffer as changed,
so that the redraw looks for the line again from the entry found (`begins_again`, `seeking_again`); a key
that changes nothing keeps the place, and the specification gives the same place then. Induction over the
keys (`hunt_key`, `hunt_presses`) gives the line and the place; Enter takes the entry as in C78
(`newline_seeking`, `loop_found`). What is found is then a matter of sorted lists of indices
(`below_getElem`, `split_sorted`).

Status: proved. C80_enter, C80_end, C80_stop: any acts of the rack of C78 that end in an insertion on the
new line, Ctrl-R or Ctrl-S, any keys of an insertion and of the search, then Enter, the end of the input,
Ctrl-C or Ctrl-D on an empty line. C80_exact: on a terminal that works without undo what Enter returns is
certain, or the redraw panics. C80_line: the line typed is what the keys make of it without the search.
C80_found, C80_stays, C80_first, C80_next: which entry is found. Right at the end of the line takes the
entry found and is an act of C78. Tab and Esc during the search, Enter after a backslash during it, and
searches begun in normal mode and continued with commands are not in the statement.

Theorems: `C80_enter`, `C80_end`, `C80_stop`, `C80_exact`, `C80_found`, `C80_line`, `C80_stays`, `C80_next`,
`C80_first`

### C81 Which keys a key map gets

case analysis of the dispatch of `handle_key`; for whole lines induction over the input.

Status: proved. C81_kept and C81_gets: for every key map, state and key, whether the key gets to the key
map, and what happens if it does. C81_agree and C81_events: two key maps that agree on the keys that can get
to them read every line in the same way, also with a completer that works on the editor. C81_redo: the vi
keys without their redo read every line in the same way; C81_redo_violation: what was undone does not come
back with Ctrl-R although the key map has a redo on it. Right in vi's normal mode on an empty line with a
suggestion panics (C57); it does not get to the key map either.

Theorems: `C81_agree`, `C81_events`, `C81_gets`, `C81_kept`, `C81_ctrl_h`, `C81_redo`, `C81_redo_violation`

### C82 What read_line returns does not depend on the terminal

a relation between two editors that agree in all but the prompt and what concerns the terminal; every
operation of the editor, and so every key, keeps it (a proof about pairs of runs), by going through the
programs of both key maps; then induction over the input and over the calls.

Status: proved. C82_outcome: two calls with the same keys end alike (line or error, history, files) for any
two terminals and prompts, unless one of them ends with an I/O error or a panic while redrawing; C82_line
and C82_returns: the cases where both, or one, return a line. C82_application: the same for a whole
application of several calls. C82_exception: the exception is real, the same keys return a line on a wide
terminal and panic on a narrow one with a mode indicator (C42).

Theorems: `C82_outcome`, `C82_line`, `C82_returns`, `C82_application`, `C82_exception`

### C83 Keys that do not look at the history return the same line whatever the history

the method of C82 with another relation: both editors are on the same new line with the same cursor and list
of candidates, and neither searches; every operation other than taking a suggestion, searching and Up keeps
it. For the vi keys together with an invariant: no key recorded for `.` or for a counted insertion looks at
the history.

Status: proved. C83_outcome: two calls with the same keys, none of which looks at the history, end alike for
any two histories (and files, terminals, prompts), unless one of them ends with an I/O error or a panic
while redrawing; C83_line and C83_empty: the cases where both return a line, and against an empty history.
C83_application: the same for several calls in a row. C83_needed: for each of the keys left out, a line that
depends on the history. C83_letter: why k is left out also as a letter of the text with the vi keys.

Theorems: `C83_outcome`, `C83_line`, `C83_empty`, `C83_application`, `C83_needed`, `C83_letter`

### C84 Both key maps give the same line for the keys they share

two runs side by side with a relation (Proof/Akin.lean) that lets undo records, the terminal and the mark
for a changed line differ; vi marks a line changed at each key, so the relation says that a search of a line
not changed is settled, which makes a second search find the same entry (Proof/AkinKeys.lean, AkinRead.lean)

Status: proved. C84_same_keys: for all pairs of calls with the shared keys, unless one of them ends with an
I/O error or a panic while redrawing; C84_line: when both return a line. C84_needed: another key (Ctrl-A)
does differ.

Theorems: `C84_same_keys`, `C84_line`, `C84_needed`

### C85 With the Emacs keys a line given at the start is as if typed

the same relation, with equal marks; typing a character from the start leads to the state one starts in with
that character given (Proof/AkinRead.lean), then all Emacs keys but undo and revert keep the relation

Status: proved. C85_as_if_typed: for all pairs of calls, unless one of them ends with an I/O error or a
panic while redrawing; C85_line: when both return a line. C85_needed: undo does tell a given line from a
typed one.

Theorems: `C85_as_if_typed`, `C85_line`, `C85_needed`

### C86 With the Emacs keys a draft leaves no trace

each of these keys leads from the state one starts in with a line given to the state one starts in with
another line given, up to undo records and the terminal (Proof/Draft.lean); then the relation of C85; the
suggestion is linked to the search for the newest entry by C17 and C37.

Status: proved. C86_draft: for all pairs of calls, unless one of them ends with an I/O error or a panic
while redrawing; C86_line: when both return a line. C86_needed: undo does tell two drafts of the same line
apart.

Theorems: `C86_draft`, `C86_line`, `C86_needed`

### C87 In vi's insert mode a draft leaves no trace, and the key map with which it was made does not matter

as C86, with the draft keys of vi's insert mode (Proof/ViDraft.lean); then the relation of C84 between Emacs
and vi, and between two runs of vi its symmetric version, in which either run may have more changes marked.

Status: proved. C87_draft: for all pairs of calls with any of the two key maps, unless one of them ends with
an I/O error or a panic while redrawing; C87_line: when both return a line. C87_needed: outside of insert
mode undo tells a given line from a typed one.

Theorems: `C87_draft`, `C87_line`, `C87_needed`

### C88 With the Emacs keys only the text and the cursor count for what follows

every editing key leads from a state that is the initial one up to text, cursor, suggestion, undo records
and the terminal to such a state, with text and cursor as in the specification of C46 (Proof/Resume.lean);
then the relation of C84.

Status: proved. C88_resume: for all pairs of calls, unless one of them ends with an I/O error or a panic
while redrawing; C88_line: when both return a line. C88_needed: undo tells two ways to the same line apart,
and so does the place of the cursor.

Theorems: `C88_resume`, `C88_line`, `C88_needed`

### C89 With the Emacs keys looking through the history, even editing entries, and coming back leaves no trace

k entries up from the new line the editor is the one of C88 up to the position, the list of matching entries
and the cursor; an edited entry is a copy that counts only while one is on it (Akin); Up and Down keep this
with k changed as in C34 and C35, and k = 0 is the state of C88 again (Proof/Stroll.lean).

Status: proved. C89_stroll: for all pairs of calls, unless one of them ends with an I/O error or a panic
while redrawing; C89_line: when both return a line. Entries may be edited on the way; what was typed there
is dropped. C89_needed: coming back with Alt-> leaves a trace (the stale position of C35), and so does
Ctrl-L on an entry, which forgets the way.

Theorems: `C89_stroll`, `C89_line`, `C89_needed`

### C90 Conversations told in another way are the same conversation

induction over the rounds with C82, C87, C88 and C89 for one round; the push afterwards depends on the line,
the history and the files only (Props/Retell.lean).

Status: proved. C90_retell: both conversations come to their end; C90_ends: the first one does, the second
does so too or was halted by its terminal (Halted). Each round is related with the history the first
conversation has then (Retold, Retells). C90_needed: undo tells a draft from a given line.

Theorems: `C90_retell`, `C90_ends`, `C90_needed`
