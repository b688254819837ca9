{
 "claims": [
  {
   "property": "C01",
   "status": "partial",
   "theorems": [
    "Readline.C01_partial",
    "Readline.C01_plain_partial",
    "Readline.C01_refuted_swap",
    "Readline.C01_refuted_orphan",
    "Readline.C01_narrow",
    "Readline.C01_wide",
    "Readline.C01_negative_cursor",
    "Readline.C01_tab",
    "Readline.calm_plain",
    "Readline.C01_ordinary_partial",
    "Readline.C01_texts_partial",
    "Readline.C01_bound_partial",
    "Readline.C01_any_partial",
    "Readline.C01_no_undo_partial",
    "Readline.C01_tidy_partial",
    "Readline.C01_texts_no_undo_partial",
    "Readline.C81_crash"
   ],
   "note": "False as stated (Ctrl-T at the end of the line, then Undo, panics). Proved: a panic needs too narrow a terminal, a tab beyond column 32767 or completion candidates that make the completion command panic (C34), for sessions of built-in and completion commands that avoid the two situations breaking the undo log. In any session of such commands the only further panic is an Undo whose entry does not fit (C01_any_partial), none without Undo (C01_no_undo_partial), and with only loose joiners excluded it is always the Undo of an exchange at the end of the line (C01_tidy_partial). C01_ordinary_partial and C01_texts_partial need conditions on texts, keys and terminal only: no tabs, no joining characters, no Ctrl-T, room for eight columns; then ReadLine returns."
  },
  {
   "property": "C02",
   "status": "partial",
   "theorems": [
    "Readline.C02_partial",
    "Readline.C02_command",
    "Readline.C02_resize",
    "Readline.C02_refuted",
    "Readline.C81_behind"
   ],
   "note": "Invariant of every session of built-in and completion commands, whenever a key is awaited. Refuted for a joiner typed at the start of the line: an Undo leaves the cursor behind the end; the model with lists stops there, and the model with memory shows that a key is then awaited with the cursor behind the end, whatever the runtime (C81_behind)."
  },
  {
   "property": "C03",
   "status": "proved",
   "theorems": [
    "Readline.C03",
    "Readline.C03_ends",
    "Readline.C03_goes_on",
    "Readline.C03_open",
    "Readline.C03_size"
   ],
   "note": ""
  },
  {
   "property": "C04",
   "status": "partial",
   "theorems": [
    "Readline.C04_partial",
    "Readline.C04_plain_partial",
    "Readline.fits_plain",
    "Readline.C04_refuted_pending",
    "Readline.C04_refuted_double",
    "Readline.C04_refuted_selector",
    "Readline.C04_alt"
   ],
   "note": "False for some sequences of joiners (three counterexamples); proved for sessions that avoid them."
  },
  {
   "property": "C05",
   "status": "partial",
   "theorems": [
    "Readline.C05_exact",
    "Readline.C05_iff",
    "Readline.C05_partial",
    "Readline.C05_counterexample_zwnj",
    "Readline.C05_counterexample_trailing",
    "Readline.C05_counterexample_malformed"
   ],
   "note": "The statement is false for lone joiners and malformed input (counterexamples proved); C05_exact gives the exact result for every string, C05_iff the exact condition."
  },
  {
   "property": "C06",
   "status": "partial",
   "theorems": [
    "Readline.C06_count",
    "Readline.C06_width",
    "Readline.C06_width_partial",
    "Readline.C06_width_plain",
    "Readline.C06_counterexample"
   ],
   "note": "Count is proved in full. GetStringWidth is the column behind the units for every string (C06_width); it is the sum of the widths StringToMoji's units say unless a tab stands behind a joined sequence, where these have wrong tab columns (C06_counterexample)."
  },
  {
   "property": "C07",
   "status": "proved",
   "theorems": [
    "Readline.C07_insert",
    "Readline.C07_insert_out_of_range",
    "Readline.C07_insert_text",
    "Readline.C07_delete",
    "Readline.C07_delete_noop"
   ],
   "note": ""
  },
  {
   "property": "C08",
   "status": "partial",
   "theorems": [
    "Readline.C08_partial",
    "Readline.C08_plain_partial",
    "Readline.C08_tidy_partial",
    "Readline.C08_refuted_swap",
    "Readline.C08_refuted_orphan"
   ],
   "note": "Full undo-log correctness for calm sessions; refuted for Ctrl-T at the end and for orphan joiners. C08_tidy_partial: with Ctrl-T at the end allowed, exactly what Undo brings back and where it panics."
  },
  {
   "property": "C09",
   "status": "proved",
   "theorems": [
    "Readline.C09",
    "Readline.C09_key",
    "Readline.C09_word_motion",
    "Readline.C09_word_key",
    "Readline.C09_resize"
   ],
   "note": "As calls of the commands and as keys of a session."
  },
  {
   "property": "C10",
   "status": "partial",
   "theorems": [
    "Readline.C10_exact",
    "Readline.C10_iff",
    "Readline.C10_partial",
    "Readline.C10_refuted_orphan",
    "Readline.C10_newline"
   ],
   "note": "C10_exact says for every line what comes back; C10_iff: the line is restored exactly if no killed unit but the first starts with an attaching code point. Refuted otherwise."
  },
  {
   "property": "C11",
   "status": "proved",
   "theorems": [
    "Readline.C11",
    "Readline.C11_clip"
   ],
   "note": ""
  },
  {
   "property": "C12",
   "status": "partial",
   "theorems": [
    "Readline.C12_partial",
    "Readline.C12_waiting_partial",
    "Readline.C12_attach",
    "Readline.C12_iff",
    "Readline.C12_refuted"
   ],
   "note": "False exactly for code points that attach to a character before (C12_iff, nothing waiting); C12_attach says what Backspace then takes away. Proved for all others, also when a joiner waits."
  },
  {
   "property": "C13",
   "status": "partial",
   "theorems": [
    "Readline.C13",
    "Readline.C13_undo_partial",
    "Readline.C13_end",
    "Readline.C13_refuted"
   ],
   "note": "The exchange is proved in full; Undo after it is proved inside the line and panics at its end for every line (C13_end)."
  },
  {
   "property": "C14",
   "status": "partial",
   "theorems": [
    "Readline.C14_backward",
    "Readline.C14_forward",
    "Readline.C14_backward_partial",
    "Readline.C14_forward_partial",
    "Readline.C14_refuted_tab"
   ],
   "note": "A tab is not taken for white space (refuted); C14_backward and C14_forward say for all lines where the motions go (a tab is part of a word), the partial theorems that this is right without tabs."
  },
  {
   "property": "C15",
   "status": "partial",
   "theorems": [
    "Readline.C15_currentWord",
    "Readline.C15_rubout",
    "Readline.C15_currentWord_partial",
    "Readline.C15_rubout_partial",
    "Readline.C15_refuted_tab",
    "Readline.C15_refuted_joined"
   ],
   "note": "Tabs and joined characters are not recognised (refuted); C15_currentWord and C15_rubout say for all lines which units are taken for the word, the partial theorems that this is right for plain characters without tabs."
  },
  {
   "property": "C16",
   "status": "proved",
   "theorems": [
    "Readline.C16",
    "Readline.C16_text",
    "Readline.C16_range",
    "Readline.C16_only"
   ],
   "note": ""
  },
  {
   "property": "C17",
   "status": "partial",
   "theorems": [
    "Readline.C17_partial",
    "Readline.C17_exact",
    "Readline.stores_exists",
    "Readline.C17_refuted_restored",
    "Readline.C17_refuted_cycling"
   ],
   "note": "False as stated: an entry edited back to its original text shows the earlier edit again, and with HistoryCycling the edit of the oldest entry is lost on wrapping. C17_partial: all sessions without those two cases and without loose joiners. C17_exact: for every session what is shown at each position."
  },
  {
   "property": "C18",
   "status": "partial",
   "theorems": [
    "Readline.C18_enter",
    "Readline.C18_cancel",
    "Readline.C18_eof",
    "Readline.C18_newest",
    "Readline.C18_found",
    "Readline.C18_undo_partial",
    "Readline.C18_refuted_undo"
   ],
   "note": "Which line is found, cancelling and Enter are proved. The single-step undo is proved for lines without loose joiners and false with them (C18_refuted_undo). What is drawn while searching is C54."
  },
  {
   "property": "C19",
   "status": "proved",
   "theorems": [
    "Readline.C19"
   ],
   "note": ""
  },
  {
   "property": "C20",
   "status": "partial",
   "theorems": [
    "Readline.C20_leak",
    "Readline.C20_accept",
    "Readline.C20_fresh_partial",
    "Readline.C20_history",
    "Readline.C20_off",
    "Readline.C20_asked",
    "Readline.C20_stale",
    "Readline.C20_refuted"
   ],
   "note": "No leak, appending the stored prediction, and nothing without PredictColor: all sessions. Whether the stored prediction is the one for the line now shown: false after KillLine, KillWholeLine, SwapChar and history commands (C20_refuted), proved for sessions without the commands that keep an old prediction. Exactly how old it can be, in every session: C20_asked (since the predictor was asked, the line changed only by keys for these five commands) and C20_stale."
  },
  {
   "property": "C21",
   "status": "proved",
   "theorems": [
    "Readline.C21_bindings",
    "Readline.C21_precedence",
    "Readline.C21_dispatch",
    "Readline.C21_step"
   ],
   "note": ""
  },
  {
   "property": "C22",
   "status": "proved",
   "theorems": [
    "Readline.C22_getRawKey",
    "Readline.C22_getKeys_total",
    "Readline.C22_getKeys",
    "Readline.C22_tty8",
    "Readline.C22_text",
    "Readline.C22_plain_key",
    "Readline.C22_escape_burst",
    "Readline.C22_lone_surrogate",
    "Readline.C22_error_loses_burst"
   ],
   "note": ""
  },
  {
   "property": "C23",
   "status": "partial",
   "theorems": [
    "Readline.C23_bytes",
    "Readline.C23_nonempty",
    "Readline.C23_chunk",
    "Readline.C23_counterexample"
   ],
   "note": "A zero-length read yields an empty key (counterexample); proved for non-empty chunks."
  },
  {
   "property": "C24",
   "status": "proved",
   "theorems": [
    "Readline.C24_add",
    "Readline.C24_empty",
    "Readline.C24_sgr",
    "Readline.C24_chain",
    "Readline.C24_chain_write",
    "Readline.C24_predefined",
    "Readline.C24_seventh"
   ],
   "note": "Seventh parameter must be below 128 (C24_seventh shows why)."
  },
  {
   "property": "C25",
   "status": "partial",
   "theorems": [
    "Readline.C25_partial",
    "Readline.C25_column",
    "Readline.C25_column_partial",
    "Readline.C25_bytes",
    "Readline.C25_every",
    "Readline.C25_every_column",
    "Readline.C25_refuted",
    "Readline.C25_refuted_st"
   ],
   "note": "For every byte string: C25_every (what is left of it) and C25_every_column (the column), with line ends inside sequences, malformed bytes and unfinished sequences. C25_partial and C25_column say the same in characters for prompts that are text. False as stated: a backspace does not remove U+FFFD (C25_refuted), and a title that ends with ESC \\ swallows the rest of the prompt (C25_refuted_st)."
  },
  {
   "property": "C26",
   "status": "partial",
   "theorems": [
    "Readline.C26_repaint_partial",
    "Readline.C26_partial",
    "Readline.C26_ordinary_partial",
    "Readline.C26_tabs_partial",
    "Readline.C26_refuted_swap",
    "Readline.C26_refuted_swap_tab",
    "Readline.C26_refuted_error"
   ],
   "note": "Every repaint with aligned tabs and the cursor in the view; every state of Steady sessions (no tabs, no unit more than twice as wide as another, only equally wide units exchanged, prompt not growing, no terminal error in the middle of a search); C26_ordinary_partial derives this from conditions on texts, keys and terminal only (Spec.Ordinary). The row is what was written; when it arrives is C55. C26_tabs_partial: lines with tabs that always fit however the tabs fall (a tab counted as seven columns), without predictions and without exchanging tabs. False otherwise: swapping units of different widths leaves a stale cell, exchanging a tab and a character leaves the row wrong even if the line fits (C26_refuted_swap_tab), an error during a search leaves the search prompt."
  },
  {
   "property": "C27",
   "status": "partial",
   "theorems": [
    "Readline.C27_repaint_partial",
    "Readline.C27_step_partial",
    "Readline.C27_partial",
    "Readline.C27_ordinary_partial",
    "Readline.C27_tabs_partial",
    "Readline.C27_refuted_prompt",
    "Readline.C27_refuted_forward",
    "Readline.C27_refuted_swap",
    "Readline.C27_refuted_tab"
   ],
   "note": "Every repaint with aligned tabs and the cursor in the view; whole Steady sessions; C27_ordinary_partial with conditions on texts, keys and terminal only; C27_tabs_partial for lines with tabs that always fit. False for Ctrl-L under a prompt as wide as the terminal, for moving over or exchanging a unit much wider than its neighbours, and (view only) for tabs whose column changes."
  },
  {
   "property": "C28",
   "status": "partial",
   "theorems": [
    "Readline.C28_rune",
    "Readline.C28_partial",
    "Readline.C28_string_partial",
    "Readline.C28_refuted",
    "Readline.C28_refuted_width",
    "Readline.C28_refuted_joined",
    "Readline.C28_refuted_joiners",
    "Readline.C28_refuted_marked",
    "Readline.C28_refuted_region"
   ],
   "note": "Every single code point and every joined unit except the combinations excluded by Orderly, for each of which the claim is false (the refutations): modifiers and variation selectors behind control characters, tabs and escaped code points, joined control characters, modifiers behind variation selectors, two joiners in a row, joined regional indicators whose width in the table is not two. Assumes a terminal that agrees with the width table (Agrees)."
  },
  {
   "property": "C29",
   "status": "partial",
   "theorems": [
    "Readline.C29_partial",
    "Readline.C29_repaint_partial",
    "Readline.C29_refuted_far",
    "Readline.C29_refuted_joined"
   ],
   "note": "Every state of a session and every repaint; false beyond column 32767 (the column is kept in 16 bits, the tab may take up to seven columns) and for a tab joined to another code point by U+200D."
  },
  {
   "property": "C30",
   "status": "partial",
   "theorems": [
    "Readline.C30_exclusive",
    "Readline.C30_partial",
    "Readline.C30_resize",
    "Readline.C30_session_partial",
    "Readline.C30_result_partial",
    "Readline.C30_same_partial",
    "Readline.C30_live_partial",
    "Readline.C30_refuted_crash",
    "Readline.C30_refuted_lost",
    "Readline.C30_refuted_race",
    "Readline.C30_refuted_deadlock",
    "Readline.C30_refuted_swap",
    "Readline.stmts_faithful"
   ],
   "note": "Two goroutines, the mutex, Open, Close and the callback, in every interleaving, with the code of a command, of the callback and of the start cut into steps in any way that computes the same (Faithful; stmts_faithful shows that cutting at every statement of main.go is one such way). Mutual exclusion holds in every schedule. When no callback comes before the start of ReadLine is over, every schedule has the effect of whole commands and whole callbacks in the order of the locks, is a session of readLine with the resizes between the keys, gives the same result as any other schedule, and can always go on. Refuted for the program as it is: the start code does not take the mutex, so a resize can be lost and a left-over Cursor crashes the program; Flush in GetKey is outside the mutex; after a panic in a command tty10's Close deadlocks. Sequential consistency is assumed; a failing Tty.Size is not modelled in the threads."
  },
  {
   "property": "C31",
   "status": "partial",
   "theorems": [
    "Readline.C31_told",
    "Readline.C31_close_partial",
    "Readline.C31_refuted",
    "Readline.C31_refuted_twice"
   ],
   "note": "After Close of tty10 the watcher is told to stop and calls back no more, in every schedule and for any code. Close returns whenever the editing ended with a result (callbacks during the start excluded). Refuted: after a panic in a command Close deadlocks with the watcher; a second Close panics (exactly two Closes in a row after an Open)."
  },
  {
   "property": "C32",
   "status": "proved",
   "theorems": [
    "Readline.C32"
   ],
   "note": ""
  },
  {
   "property": "C33",
   "status": "proved",
   "theorems": [
    "Readline.C33",
    "Readline.C33_words",
    "Readline.C33_blanks",
    "Readline.repaintAll_out"
   ],
   "note": "Exact: when nothing is done, when the bell rings and the names are shown, and which text replaces which units. The blanks between the last word and the cursor are replaced together with the word (C33_blanks), which the statement leaves open."
  },
  {
   "property": "C34",
   "status": "partial",
   "theorems": [
    "Readline.C34_partial",
    "Readline.C34_refuted_case",
    "Readline.C34_refuted_cut",
    "Readline.C34_refuted_utf8"
   ],
   "note": "False for letters whose two cases take different numbers of bytes and for candidates that are not UTF-8; proved otherwise."
  },
  {
   "property": "C35",
   "status": "partial",
   "theorems": [
    "Readline.C35_partial",
    "Readline.C35_stuck",
    "Readline.C35_empty",
    "Readline.C35_refuted"
   ],
   "note": "False: loops for ever when the only match is a readable empty directory and panics on an empty last field; returns in all other cases."
  },
  {
   "property": "C36",
   "status": "partial",
   "theorems": [
    "Readline.C36_bindKeyFunc",
    "Readline.C36_bindKeyFunc_all",
    "Readline.C36_getFunc",
    "Readline.C36_getFunc_all",
    "Readline.C36_named",
    "Readline.C36_bindKeySymbol_refuted"
   ],
   "note": "C36_named: which command a name finds, with the names given separately from the table; codes of keys are in C47. BindKeySymbol always fails: refuted."
  },
  {
   "property": "C37",
   "status": "proved",
   "theorems": [
    "Readline.C37",
    "Readline.C37_quoting"
   ],
   "note": "C37_quoting is the same for the colourings of test/color-sgr and test/color-default-symbol."
  },
  {
   "property": "C38",
   "status": "partial",
   "theorems": [
    "Readline.C38_coloring",
    "Readline.C38_looks",
    "Readline.C38_partial",
    "Readline.C38_words_partial",
    "Readline.C38_refuted_width",
    "Readline.C38_refuted_resize",
    "Readline.C38_refuted_prompt"
   ],
   "note": "For the colours the statement is proved without conditions on keys, resizes or predictions: C38_coloring (any two Colorings: the same panic or the same result, and the same output but for colour sequences), C38_looks (also prompts of the same width, line feeds, earlier output). False for settings that change the width of the view: several commands leave a stale prediction which a resize or a scrolling word motion refreshes, so width, resizes and the width of the prompt can decide what ForwardChar accepts (refuted). For those, proved for sessions that never consult a stale prediction."
  },
  {
   "property": "C39",
   "status": "proved",
   "theorems": [
    "Readline.C39",
    "Readline.C39_open",
    "Readline.C39_running"
   ],
   "note": "Bytes supplied by the caller (prompt, line feed, colours) and control characters in the line are not interpreted."
  },
  {
   "property": "C40",
   "status": "partial",
   "theorems": [
    "Readline.C40_partial",
    "Readline.C40_control",
    "Readline.C40_refuted_alt"
   ],
   "note": "False for ESC followed by a printable byte, whose ESC is dropped; proved for all other keys."
  },
  {
   "property": "C41",
   "status": "proved",
   "theorems": [
    "Readline.C41_quoted",
    "Readline.C41_plain",
    "Readline.C41_oneLine"
   ],
   "note": ""
  },
  {
   "property": "C42",
   "status": "proved",
   "theorems": [
    "Readline.C42_start",
    "Readline.C42_same_partial"
   ],
   "note": "C42_start is the statement about the start state; C42_same_partial compares whole sessions after two different pasts."
  },
  {
   "property": "C43",
   "status": "partial",
   "theorems": [
    "Readline.C43_partial",
    "Readline.C43_key_partial",
    "Readline.C43_units_partial",
    "Readline.C43_text_partial",
    "Readline.C43_refuted_end",
    "Readline.C43_refuted_double",
    "Readline.C43_refuted_selector",
    "Readline.C43_refuted_first"
   ],
   "note": "Every state, every text in which a joiner is followed by a code point that does not attach and whose first code point does not attach to what stands before it, all feature flags; false otherwise."
  },
  {
   "property": "C44",
   "status": "partial",
   "theorems": [
    "Readline.C44_halts",
    "Readline.C44_order",
    "Readline.C44_pilot_partial",
    "Readline.C44_calm_partial",
    "Readline.C44_no_undo_partial",
    "Readline.C44_refuted"
   ],
   "note": "Every session ends and keys are taken in order; a Pilot session returns unless it panics, which the script of C01 does."
  },
  {
   "property": "C45",
   "status": "proved",
   "theorems": [
    "Readline.C45",
    "Readline.C45_stable"
   ],
   "note": ""
  },
  {
   "property": "C46",
   "status": "partial",
   "theorems": [
    "Readline.C46_puts_partial",
    "Readline.C46_repaint_partial",
    "Readline.C46_session_partial",
    "Readline.C46_vimBatch",
    "Readline.C46_monoChrome",
    "Readline.C46_refuted"
   ],
   "note": "All sessions and all colourings whose colours are positive numbers, which holds of the two in the library; false for a colouring that answers 0 or less, since then no colour sequence is written and the colour before stays in force."
  },
  {
   "property": "C47",
   "status": "partial",
   "theorems": [
    "Readline.C47_partial",
    "Readline.C47_names",
    "Readline.C47_refuted",
    "Readline.C47_refuted_F13"
   ],
   "note": "Every name of keys/naming.go whose key sends something on an xterm, every spelling, every key map and state; the specification of what keys send is written separately. False for the 21 names in Spec.misnamed: CTRL_DOWN is Down, M_BACKSPACE is Backspace, F1-F4 and F6-F8 have wrong sequences, F13-F24 are single bytes (F13 is the character |)."
  },
  {
   "property": "C48",
   "status": "partial",
   "theorems": [
    "Readline.C48_partial",
    "Readline.C48_insert",
    "Readline.C48_refuted"
   ],
   "note": "Every documented pair of command and key, in every state without own binding of that key; all other keys with a name insert what they send. False for UNDO (documented for Ctrl-U) and ISEARCH_BACKWARD (documented for Ctrl-I)."
  },
  {
   "property": "C49",
   "status": "partial",
   "theorems": [
    "Readline.C49_call",
    "Readline.C49_lines",
    "Readline.C49_call_partial",
    "Readline.C49_returns_partial",
    "Readline.C49_tty10",
    "Readline.C49_tty8",
    "Readline.C49_pilot",
    "Readline.C49_error",
    "Readline.C49_tty10_error",
    "Readline.C49_refuted"
   ],
   "note": "For every Tty that delivers characters one by one, and the three Ttys of the library do. For tty10 only if reads end between characters and contain no ESC (C49_refuted: text behind an ESC in the same read becomes part of one key); a call may panic when the terminal is too narrow or a tab stands beyond column 32767, as in C04. C49_error: a failure of the terminal in the middle of a line; C49_tty10_error: tty10 passes the failure on."
  },
  {
   "property": "C50",
   "status": "proved",
   "theorems": [
    "Readline.C50",
    "Readline.C50_reads",
    "Readline.C50_unique"
   ],
   "note": "All built-in commands and all completion commands. The hypothesis is that one further event behind the input is unread after the call; then any other events can stand in its place."
  },
  {
   "property": "C51",
   "status": "partial",
   "theorems": [
    "Readline.C51_linefeed",
    "Readline.C51_partial",
    "Readline.C51_ordinary_partial",
    "Readline.C51_tabs_partial",
    "Readline.C51_eof_partial",
    "Readline.C51_interrupt_partial",
    "Readline.C51_refuted"
   ],
   "note": "The line feed for all sessions. The row where C26 holds (steady sessions, in particular ordinary ones; lines with tabs that always fit: C51_tabs_partial). False after Ctrl-C when a prediction was computed: the line is erased, otherwise it stays (C51_refuted)."
  },
  {
   "property": "C52",
   "status": "proved",
   "theorems": [
    "Readline.C52_getKey",
    "Readline.C52_tty8",
    "Readline.C52_tty10",
    "Readline.C52_calls8",
    "Readline.C52_calls10",
    "Readline.C52_same8",
    "Readline.C52_same10"
   ],
   "note": "The function that goes back to the old mode is taken to succeed (the code ignores its error). C52_same8 and C52_same10 connect the model with modes to the one without (C22, C23, C49)."
  },
  {
   "property": "C53",
   "status": "partial",
   "theorems": [
    "Readline.C53_known_partial",
    "Readline.C53_settles",
    "Readline.C53_changes",
    "Readline.C53_calls",
    "Readline.C53_tty10",
    "Readline.C53_refuted"
   ],
   "note": "True if the window had the same width when Open and when ReadLine asked for it, or once a signal with another width has come. False if it changed in between and then goes back (C53_refuted). tty10 asks every second and reports repeatedly."
  },
  {
   "property": "C54",
   "status": "proved",
   "theorems": [
    "Readline.C54"
   ],
   "note": "For every call of ISEARCH_BACKWARD from any state (the line, cursor and prompt arbitrary); the only hypothesis is that widths of cells are not negative."
  },
  {
   "property": "C55",
   "status": "partial",
   "theorems": [
    "Readline.C55_order",
    "Readline.C55_fails",
    "Readline.C55_return",
    "Readline.C55_key",
    "Readline.C55_stays_partial",
    "Readline.C55_refuted"
   ],
   "note": "Everything has arrived when ReadLine returns and when GetKey begins to wait, and it stays so while no callback of a resize takes the mutex. False after such a callback: RepaintLastLine flushes before it writes and nothing flushes afterwards, so the repainted row waits in the buffer until the next key or resize (C55_refuted, in every session and at every key)."
  },
  {
   "property": "C56",
   "status": "partial",
   "theorems": [
    "Readline.C56_keeps",
    "Readline.C56_fills",
    "Readline.C56_again",
    "Readline.C56_out_partial",
    "Readline.C56_refuted"
   ],
   "note": "That output goes to Writer holds for the first call if Out is not set; a Writer set later is not used (C56_refuted)."
  },
  {
   "property": "C57",
   "status": "proved",
   "theorems": [
    "Readline.C57_over",
    "Readline.C57_states",
    "Readline.C57_result",
    "Readline.C57_refuted_whole"
   ],
   "note": "For all sessions of built-in commands. Keys that begin with a join control must be whole characters when joining is enabled (WholeKeys); without it two cut keys make a new code point (C57_refuted_whole). What a completion command inserts is taken from completionOf, which C33 and C34 describe."
  },
  {
   "property": "C58",
   "status": "partial",
   "theorems": [
    "Readline.C58_partial",
    "Readline.C58_prompt_partial",
    "Readline.C58_sign_partial",
    "Readline.C58_texts_partial",
    "Readline.C58_tabs_partial",
    "Readline.Example.keys_display"
   ],
   "note": "Down to the bytes and the cells of a terminal. For sessions of built-in and completion commands without lists, with ordinary characters (no joined characters, C28 refutes those) and a prompt that leaves the terminal in a definite column; C58_prompt_partial adds that the characters of the prompt stay in front of the line; C58_sign_partial says the same of prompts that have to be written at the beginning of a row (Spec/Sign); C58_texts_partial has the default keys and prompt and conditions on texts, keys and terminal alone, and also says that ReadLine returns. C58_tabs_partial is for lines with tabs that always fit, however their tabs fall: all of the line is shown, every tab as blanks up to the next tab stop. That the row shows as much of the line as fits is said for lines of equally wide characters. Missing: tabs in lines that scroll, joined characters, lists of completion, SwapChar in the version with default keys and over tabs."
  },
  {
   "property": "C59",
   "status": "partial",
   "theorems": [
    "Readline.C59_inside_partial",
    "Readline.C59_partial",
    "Readline.C59_plain_partial",
    "Readline.C59_undo_partial",
    "Readline.C59_replace",
    "Readline.Example.lawfulEditor_lawful",
    "Readline.C59_refuted_scrolled",
    "Readline.C59_refuted_undo"
   ],
   "note": "For all programs over the exported calls (Own) and all sessions. The two situations that are not calm (SwapChar at the end of the line, loose joiners; C01, C08) are excluded as for the built-in commands, so the theorems are partial. The command of examples/example4.go breaks the rules and panics (C59_refuted_scrolled, C59_refuted_undo)."
  },
  {
   "property": "C60",
   "status": "proved",
   "theorems": [
    "Readline.C60_flags",
    "Readline.C60_variables",
    "Readline.C60_units",
    "Readline.C60_line",
    "Readline.C60_cursor",
    "Readline.C60_kill_yank",
    "Readline.C60_backspace",
    "Readline.C60_search_undo",
    "Readline.C60_typed",
    "Readline.C60_columns",
    "Readline.C60_display",
    "Readline.Example.keys_inCode"
   ],
   "note": "All environments. C60_display has the conditions of C58_texts_partial (no tabs, no Ctrl-T, room for eight columns) with those about characters discharged. Of the Unicode tables only that ASCII is narrow and that no variation selector is below U+0300 is assumed."
  },
  {
   "property": "C61",
   "status": "partial",
   "theorems": [
    "Readline.C61_unnamed",
    "Readline.C61_texts_partial",
    "Readline.C61_apart_partial",
    "Readline.C61_terminal",
    "Readline.C61_refuted",
    "Readline.Example.anything_inCode"
   ],
   "note": "All texts on terminals that the environment does not name (the width of U+007F..U+009F must be 0, which c1_width shows for the width function of the orgxwidth build). On named terminals for texts without control characters or without joining characters; for other texts it is false: Windows Terminal gets a raw ESC [2J from a default text with ESC behind U+200D (C61_refuted). Lists of completion candidates are written by a third-party package and not covered."
  },
  {
   "property": "C62",
   "status": "partial",
   "theorems": [
    "Readline.C62_line_partial",
    "Readline.C62_partial",
    "Readline.C62_ends",
    "Readline.C62_goes_on_partial",
    "Readline.C62_returns_partial",
    "Readline.C62_texts_partial",
    "Readline.C62_screen",
    "Readline.C62_refuted",
    "Readline.Example.shell_script"
   ],
   "note": "Every script of lines that are typed, fetched, searched for or predicted, from an empty history (or one whose lines are cut into units without loss), for all key bindings to built-in commands: if the program returns, its history is right. The calls write one behind the other (C62_screen). That it returns is proved for the default keys and plain texts; a narrow terminal or tabs beyond column 32767 can make it panic (C01). Lines that are made in other ways can fail to come back on terminals that join characters (C62_refuted)."
  },
  {
   "property": "C63",
   "status": "proved",
   "theorems": [
    "Readline.C63",
    "Readline.C63_unique",
    "Readline.built_names",
    "Readline.C63_session",
    "Readline.C63_refuted",
    "Readline.C63_refuted_tab"
   ],
   "note": "All code points and configurations; C63_session carries it to everything printed in a session (with joining enabled, keys that begin with a join control have to be valid UTF-8). C63_refuted and C63_refuted_tab show that whole lines can look alike, which the property does not exclude."
  },
  {
   "property": "C64",
   "status": "partial",
   "theorems": [
    "Readline.C64_partial",
    "Readline.C64_paste_partial",
    "Readline.C64_together",
    "Readline.C64_history",
    "Readline.C64_refuted_waiting",
    "Readline.C64_refuted_attach",
    "Readline.C64_refuted_together",
    "Readline.C64_refuted_history"
   ],
   "note": "Refuted in four places, with what happens instead: text typed while a joiner waits or that begins with an attaching code point (C64_refuted_waiting, C64_refuted_attach), a paste right after a removal at the cursor (taken back together: C64_together, C64_refuted_together), and browsing the history (two Undos: C64_history, C64_refuted_history). C64_partial and C64_paste_partial cover everything else, in any session; the state before the command has no loose joiner behind the first unit and the command is not SwapChar at the end of the line."
  },
  {
   "property": "C65",
   "status": "partial",
   "theorems": [
    "Readline.C65_partial",
    "Readline.C65_last_partial",
    "Readline.C65_yank",
    "Readline.C65_end_partial",
    "Readline.C65_program",
    "Readline.C65_refuted_empty",
    "Readline.C65_refuted_whole"
   ],
   "note": "Everything but the last sentence is proved (C65_partial: which texts were written; C65_last_partial, C65_end_partial, C65_program: the clipboard holds the last one; C65_yank: what Yank inserts). The last sentence is refuted: a kill command that finds nothing to remove empties the clipboard (C65_refuted_empty), and the line removed by KillWholeLine is not kept (C65_refuted_whole)."
  },
  {
   "property": "C66",
   "status": "partial",
   "theorems": [
    "Readline.C66",
    "Readline.C66_panics",
    "Readline.C66_own",
    "Readline.C66_refuted_runes"
   ],
   "note": "The contract as stated is proved (C66, C66_panics; C66_own for all calls in sessions with own commands). Partial because one comment in the code is wrong: InsertString does not return 'the count of runes' but of joined characters (C66_refuted_runes). Slices of B.Buffer beyond the length but within the capacity do not panic in Go; in the model they end the run."
  },
  {
   "property": "C67",
   "status": "partial",
   "theorems": [
    "Readline.C67_reset",
    "Readline.C67_start",
    "Readline.C67_partial",
    "Readline.C67_whole_partial",
    "Readline.C67_tabs_partial",
    "Readline.C67_refuted_fits",
    "Readline.C67_refuted_wide",
    "Readline.C67_refuted_rubout"
   ],
   "note": "ResetViewStart (C67_reset), the start, resizes and all built-in commands in steady sessions (C67_partial); a line that always fits is shown from its beginning (C67_whole_partial, without the assumption that the session is steady). False as stated: ForwardChar over a character wider than the first one shown scrolls by two characters where one would do (C67_refuted_wide); Ctrl-W moves the window although the cursor is still inside (C67_refuted_rubout); a line that has become short enough need not be shown from its beginning (C67_refuted_fits). C67_tabs_partial: the last part for lines with tabs. Missing: lines with tabs that do not fit."
  },
  {
   "property": "C68",
   "status": "partial",
   "theorems": [
    "Readline.C68_begins",
    "Readline.C68_first",
    "Readline.C68_mute",
    "Readline.C68_exact",
    "Readline.C68_lines",
    "Readline.C68_same_partial",
    "Readline.C68_texts_partial",
    "Readline.C68_refuted_narrow",
    "Readline.C68_refuted_told"
   ],
   "note": "With a prompt of two columns (the default) on more than five columns the calls do exactly the same on every output, any number of them (C68_exact, C68_lines), and return for ordinary texts (C68_texts_partial). With other prompts the result is the same as far as it is independent of the width of the prompt (C68_same_partial, as C38). False on five columns or less: the text written in place of the prompt leaves no room and Ctrl-E panics (C68_refuted_narrow). After a failure nothing arrives any more, even if the terminal recovers (C68_mute), and the caller is not told (C68_refuted_told)."
  },
  {
   "property": "C69",
   "status": "partial",
   "theorems": [
    "Readline.C69_files",
    "Readline.C69_mutex",
    "Readline.C69_partial",
    "Readline.C69_texts_partial",
    "Readline.C69_hangs",
    "Readline.C69_refuted_mutex",
    "Readline.C69_refuted_files"
   ],
   "note": "True for every call that returns, if Size did not fail within Open (C69_files, C69_mutex, for any number of calls and any commands); with a working terminal and no panic a call does what readLine says (C69_partial), which ordinary texts guarantee (C69_texts_partial). False after a panic in a command: the mutex stays locked and the next call hangs at its first key (C69_hangs, C69_refuted_mutex). False if Size fails within tty8's Open: the terminal stays open, one for each such call (C69_files says exactly these; C69_refuted_files). For tty10 see C31."
  },
  {
   "property": "C70",
   "status": "partial",
   "theorems": [
    "Readline.C70_reads",
    "Readline.C70_units",
    "Readline.C70_default",
    "Readline.C70_insert",
    "Readline.C70_history",
    "Readline.C70_yank",
    "Readline.C70_line",
    "Readline.C70_valid",
    "Readline.C70_refuted_search",
    "Readline.C70_refuted_predict",
    "Readline.C70_refuted_browse"
   ],
   "note": "Every byte string is read in exactly one way (C70_reads; Spec/Reads uses Lean's own encoder) and has the units and width of the text so read (C70_units). With a malformed default text ReadLine does exactly what it does with the text so read (C70_default), and so do insertion, the history commands and Yank (C70_insert, C70_history, C70_yank). The result is valid UTF-8 whatever comes in, own commands included (C70_valid), and so is the line at any time (C70_line). False for incremental search and for the prediction, which compare bytes: a malformed history line is not found by the characters shown for it (C70_refuted_search, C70_refuted_predict), and an edit of it that is taken back is forgotten where it would otherwise come back (C70_refuted_browse)."
  },
  {
   "property": "C71",
   "status": "partial",
   "theorems": [
    "Readline.C71_trim",
    "Readline.C71_predict",
    "Readline.C71_shown",
    "Readline.C71_accept_partial",
    "Readline.C71_program",
    "Readline.C71_refuted"
   ],
   "note": "The first half holds for all histories and lines (C71_trim, C71_predict) and at all times of a session without the five commands that keep an old prediction, see C20 (C71_shown). Accepting makes the line the history line, blanks at the ends aside, exactly if no blank stands behind what was typed, or only blanks were typed, or nothing is predicted (C71_accept_partial, for histories of text without join controls, which C71_program shows of the program itself but for the join controls). With a blank behind it is false: git, blank, accept gives two blanks, and gi, blank, accept cuts the word (C71_refuted)."
  },
  {
   "property": "C72",
   "status": "partial",
   "theorems": [
    "Readline.C72_repaint_partial",
    "Readline.C72_session_partial",
    "Readline.C72_shown_partial",
    "Readline.C72_vimBatch",
    "Readline.C72_quoting",
    "Readline.C72_monoChrome",
    "Readline.C72_vimBatch_shown",
    "Readline.C72_refuted_cursor",
    "Readline.C72_refuted_swap"
   ],
   "note": "Proved for sessions with the built-in commands, tabs and scrolling included, and Colorings that answer positive colours and do not look at the cursor mark, if Ctrl-T finds units of one width without tabs and the order of two characters makes no difference to the Coloring, or Ctrl-T comes at the end of the line (C72_session_partial). Under the assumptions of C26 the row also shows the line (C72_shown_partial). The Colorings of the repository are of this kind (C72_vimBatch, C72_quoting, C72_monoChrome), and with VimBatch the colours are those promised by C37 (C72_vimBatch_shown). False for a Coloring that uses the cursor mark: moving the cursor leaves the colours as they were (C72_refuted_cursor). False for Ctrl-T if the order matters to the Coloring: what follows keeps the colours of the line before (C72_refuted_swap). The colours of predictions are those of PredictColor, see C46."
  },
  {
   "property": "C73",
   "status": "partial",
   "theorems": [
    "Readline.C73_keys",
    "Readline.C73_others",
    "Readline.C73_ends",
    "Readline.C73_partial",
    "Readline.C73_returns_partial",
    "Readline.C73_refuted"
   ],
   "note": "The ten keys in every state of every session (C73_keys), the other keys (C73_others) and the end of the program (C73_ends) without exceptions. The history is proved for scripts of lines that are typed, fetched or searched for, as in C62, if the program returns (C73_partial); it returns on plain texts without Ctrl-T (C73_returns_partial). Ctrl-T at the end of a line and Undo after it panic, as in C01 (C73_refuted). Keys pressed while a search is going on belong to the search (C18)."
  },
  {
   "property": "C74",
   "status": "proved",
   "theorems": [
    "Readline.C74_units",
    "Readline.C74_step",
    "Readline.C74_start",
    "Readline.C74_session",
    "Readline.C74_returns",
    "Readline.C74_needs_width"
   ],
   "note": "Every step from every reachable state (C74_step), the start (C74_start), and whole sessions without resizes (C74_session, C74_returns). The condition on joined units is needed: SetZWJSWidthGetter may give them no width at all, and then the whole line is printed (C74_needs_width). Bytes per unit are not bounded: one unit may be joined of many code points."
  },
  {
   "property": "C75",
   "status": "partial",
   "theorems": [
    "Readline.C75_tty10",
    "Readline.C75_partial",
    "Readline.C75_result_partial",
    "Readline.C75_exclusive",
    "Readline.C75_statements",
    "Readline.C75_refuted_written",
    "Readline.C75_refuted_crash"
   ],
   "note": "With tty10 all of it holds, for any code (C75_tty10). With the default Tty it is false: Close does not wait for the goroutine that watches the window size, so a callback of a call that has returned paints its old line over the line of the next call (C75_refuted_written), and crashes the program when the cursor is further right than the old line was long (C75_refuted_crash). What remains with the default Tty: apart from the output, everything is as if each call ran by itself, as long as nothing crashes (C75_partial, C75_result_partial), and the mutex excludes the goroutines of all calls from each other (C75_exclusive). Not covered: a call after a panic that the program has recovered from (C69 has the mutex of those), a PromptWriter that counts over several calls."
  },
  {
   "property": "C76",
   "status": "partial",
   "theorems": [
    "Readline.C76_partial",
    "Readline.C76_directory",
    "Readline.C76_session_partial",
    "Readline.C76_returns",
    "Readline.C76_panics",
    "Readline.C76_hangs",
    "Readline.C76_refuted_empty",
    "Readline.C76_refuted_hang"
   ],
   "note": "False in two cases, both proved: with an empty last word (\"\" typed, or a delimiter at the start of a word) the editor panics (C76_panics, C76_refuted_empty), and with a word that only fits an empty directory it hangs (C76_hangs, C76_refuted_hang). In all other cases the key does what the listings say (C76_partial, C76_directory), and the session is one with a completer that always answers (C76_session_partial; C76_returns for calls that return, with nothing assumed of names), to which the other theorems apply. Names of directory entries are taken to be non-empty and without slashes, the file system does not change during one press of the key, and the paths are those of Unix. The common prefix of several names can be cut wrongly or panic, see C34."
  },
  {
   "property": "C77",
   "status": "partial",
   "theorems": [
    "Readline.C77_fields",
    "Readline.C77_unique",
    "Readline.C77_runs",
    "Readline.C77_goes_on_partial",
    "Readline.C77_script_partial",
    "Readline.C77_refuted_quotes"
   ],
   "note": "In every run the commands are the words of the lines of the history, one for each, in order (C77_runs, C77_fields, C77_unique). A user who enters lines in any of the ways of C62, without Tab and Ctrl-T and with plain characters, gets just these run, and the shell ends with Ctrl-D (C77_script_partial, C77_goes_on_partial). The claim about completed names is false: completion puts quotation marks around a name with a blank, and strings.Fields cuts it there all the same (C77_refuted_quotes). Taken as given in the last two: the commands leave the keyboard, the window and the clipboard alone. Missing: that the shell goes on with Tab, which is false by C76, and with Ctrl-T, by C01."
  },
  {
   "property": "C78",
   "status": "partial",
   "theorems": [
    "Readline.C78_result_partial",
    "Readline.C78_states_partial",
    "Readline.C78_pages_partial",
    "Readline.C78_total_partial",
    "Readline.C78_bound_partial",
    "Readline.C78_usual_partial",
    "Readline.C78_panic_partial",
    "Readline.C78_refuted_stale"
   ],
   "note": "The result of every call that returns (C78_result_partial) and every state in which a key is awaited (C78_states_partial) are those of Spec/Textbook, and every page of the textbook is such a state (C78_pages_partial). With room on the screen and ordinary characters the call returns, or panics exactly where the textbook crashes, at the Undo of an exchange at the end of the line (C78_total_partial; for any key map over the commands of the package but completion C78_bound_partial, C78_panic_partial; with the default keys C78_usual_partial). Missing: a prediction taken after a command that leaves an old one, where the claim is false (C78_refuted_stale); the default Predictor and a clipboard that keeps what it is given are assumed; tabs and characters without a column are not covered by the claim that the call returns."
  },
  {
   "property": "C79",
   "status": "partial",
   "theorems": [
    "Readline.C79_partial",
    "Readline.C79_next_partial"
   ],
   "note": "For any keys bound to the commands of the package but completion, and ordinary characters: the program and the notebook of Spec/Notebook end with the same history and the same error, or the program panics where the notebook crashes (C79_partial); a call that returns leaves the clipboard and the unread keys of the textbook (C79_next_partial). Missing: completion and commands of the program itself, an old prediction that is taken (C78_refuted_stale), characters that are not ordinary."
  },
  {
   "property": "C80",
   "status": "partial",
   "theorems": [
    "Readline.C80_partial",
    "Readline.poster_sign",
    "Readline.C80_pages_partial",
    "Readline.C80_result_partial",
    "Readline.C80_refuted_exchange"
   ],
   "note": "Every state in which a key is awaited shows the page of the textbook (C80_partial); every page at which a key follows is shown (C80_pages_partial); the call returns the answer of the textbook if no key exchanges letters (C80_result_partial, otherwise C78_bound_partial); the keys may be bound to any command of the package but completion. False for Ctrl-T in a line that is scrolled, with characters of different widths: half of the wide character stays and the rest of the row is displaced (C80_refuted_exchange); so with Ctrl-T all characters are assumed to take one column. Missing: with quoted insert all characters of the keys must be ordinary; characters that are not ordinary; prompts that are wider than they look or change their width (C25). The prompt may be any that shows a row of characters (Spec/Sign), coloured or not, at the beginning of the row or of the next one (poster_sign). If predictions are on and a key that leaves an old one is among the keys, only the line and the cursor are those of the textbook, not the prediction behind it."
  },
  {
   "property": "C81",
   "status": "partial",
   "theorems": [
    "Readline.C81_partial",
    "Readline.C81_layout",
    "Readline.C81_cells",
    "Readline.C81_awaited",
    "Readline.C81_lists",
    "Readline.C81_panics",
    "Readline.C81_back",
    "Readline.C81_no_undo",
    "Readline.C81_calm",
    "Readline.C81_texts",
    "Readline.C81_refuted",
    "Readline.C81_behind",
    "Readline.C81_ghost",
    "Readline.C81_crash"
   ],
   "note": "Same line, same state, same output for any two growth policies, or a panic in both after the same output (C81_layout); the same panic if no key is Ctrl-T (C81_partial). Refuted for Ctrl-T with the cursor behind the end: nil pointer in one runtime, bounds check in another (C81_refuted). The model with lists is exact for all calls that do not end in its outcome stale (C81_lists, C81_panics, C81_no_undo, C81_calm); what happens behind that outcome is C81_behind, C81_ghost and C81_crash. Not modelled: commands of the program that keep slices of the buffer; tab positions of cells behind the line."
  },
  {
   "property": "C82",
   "status": "partial",
   "theorems": [
    "Readline.C82_partial",
    "Readline.C82_end_partial",
    "Readline.C82_pages_partial",
    "Readline.C82_history_partial"
   ],
   "note": "From the keys to the cells of all rows, scroll-back included: the page of the textbook at the cursor, the lines entered above it, then what was there before (C82_partial, C82_end_partial); every page is shown (C82_pages_partial); the history is the transcript less what is not kept (C82_history_partial). Conditions as in C80 (any keys but completion, any prompt that shows a row of characters, ordinary characters of equal width if Ctrl-T is used), no Ctrl-L, which erases the screen by design, the default line feed. The claim about the end excludes a failing Tty, where no line feed is written. What a row shows of a line that does not fit is the part around the cursor. The row left by Ctrl-C is not described, only that it is one row."
  },
  {
   "property": "C83",
   "status": "partial",
   "theorems": [
    "Readline.C83_example3_partial",
    "Readline.C83_example3_waits_partial",
    "Readline.C83_example3_end_partial",
    "Readline.C83_example3_pages_partial",
    "Readline.C83_partial",
    "Readline.C83_end_partial",
    "Readline.replyLines_notebook",
    "Readline.C83_refuted_control"
   ],
   "note": "From the keys to the cells of all rows, scroll-back included, for the program of the example (C83_example3_*) and for any program of this kind, with its own keys, its own prompt and a choice of the lines to keep (C83_partial, C83_end_partial, replyLines_notebook). Conditions: what is typed or in the clipboard are ordinary characters that can be printed - false otherwise, C83_refuted_control: three of the ten keys type control characters, which the program prints raw, so that two different lines look the same -, no Ctrl-L, which erases the screen by design, no Ctrl-Q/Ctrl-V and, for the theorems about the example itself, no Ctrl-T (C80, C44). If predictions are made, Ctrl-C may empty the row of the line that is given up (Remains in Spec/Reply, C51)."
  },
  {
   "property": "C84",
   "status": "partial",
   "theorems": [
    "Readline.C84_foresees",
    "Readline.C84_partial",
    "Readline.C84_waits_partial",
    "Readline.C84_end_partial",
    "Readline.C84_pages_partial",
    "Readline.C84_refuted"
   ],
   "note": "From the keys to the cells of all rows; C84_foresees is about all histories and texts. Conditions: what is typed or in the clipboard are ordinary characters that can be printed, no Ctrl-L, Ctrl-Q, Ctrl-V and Ctrl-T, and either no key takes a prediction or no key (Ctrl-K, Ctrl-U, Ctrl-P, Ctrl-N) leaves an old one, without which it is false (C20, C38); that what stands behind the line is the prediction for it needs the latter. The row of the line given up is emptied by Ctrl-C, but only if something was predicted since: C84_refuted."
  },
  {
   "property": "C85",
   "status": "partial",
   "theorems": [
    "Readline.C85_partial",
    "Readline.C85_waits_partial",
    "Readline.C85_entered_partial",
    "Readline.C85_end_partial",
    "Readline.C85_pages_partial",
    "Readline.C85_lines",
    "Readline.C85_refuted"
   ],
   "note": "From the keys to the commands and to the cells of the row of the line. Conditions: those of C84 on what is typed; no Tab (C76, C77 are about it); commands do not touch the input (HandsOff) and leave the terminal at the beginning of a row with nothing below it (Mannered), as all commands do that write lines of printable characters (C85_lines). A command that does not end its line takes the place of the prompt: the first key erases the prompt behind the command's output: C85_refuted. Not covered: what the commands' output looks like in the rows above."
  },
  {
   "property": "C86",
   "status": "partial",
   "theorems": [
    "Readline.C86_partial",
    "Readline.C86_rows_partial",
    "Readline.C86_files_partial",
    "Readline.C86_editor_partial",
    "Readline.C86_waits_partial",
    "Readline.C86_editing_partial",
    "Readline.C86_edited",
    "Readline.C86_noEditor",
    "Readline.C86_enter_partial",
    "Readline.C86_trim",
    "Readline.C86_fails",
    "Readline.C86_refuted_long"
   ],
   "note": "From the keys to the cells of the rows, for the three programs. Conditions: those of C84 on what is typed; example4 from the beginning of a row (its prompt begins with a carriage return) and for its rows without Escape. Escape: C86_edited says for every state of the line what the line and the cursor are afterwards, and that the program panics exactly when more of the old line was scrolled away than the new text is long (C59_refuted_scrolled is a session). The claim that the line is then shown is false: a text longer than the row is written beyond it, and every key makes it worse: C86_refuted_long. A later Undo may panic: C59_refuted_undo. Not covered: Tab in completion/example.go (C76, C77)."
  },
  {
   "property": "C87",
   "status": "partial",
   "theorems": [
    "Readline.C87_partial",
    "Readline.C87_pens",
    "Readline.C87_page_partial",
    "Readline.C87_program_partial",
    "Readline.C87_quoted_partial",
    "Readline.C87_sgr_partial",
    "Readline.C87_symbol_partial",
    "Readline.C87_vimBatch_partial",
    "Readline.C87_refuted_left"
   ],
   "note": "From the keys to the colours of the cells, for every way a terminal reads colour sequences (C87_partial, C87_page_partial) and for the usual one (C87_sgr_partial, C87_symbol_partial, C87_vimBatch_partial). The last sentence is false: nothing resets the colour when ReadLine returns, so that what the program prints afterwards is bold, or white on black in test/color-sgr: C87_refuted_left. Conditions: those of C58, C72 and C80 (no tabs and joined characters in the line, no exchange; colourings that look neither at the cursor nor depend on the order). The colour of predictions is not claimed."
  },
  {
   "property": "C88",
   "status": "partial",
   "theorems": [
    "Readline.C88_partial",
    "Readline.C88_left_partial",
    "Readline.C88_vimBatch_partial",
    "Readline.C88_monoChrome_partial",
    "Readline.C88_shell_partial",
    "Readline.C88_files_partial",
    "Readline.C88_prompt_partial",
    "Readline.C88_main_partial",
    "Readline.C88_refuted"
   ],
   "note": "C88_partial for any set of pens the default colour leads to, C88_left_partial where the default colour determines the pen; VimBatch, the editor without a colouring and the example shell as cases. Conditions: what is written for texts does not control the terminal (the conclusion of C61, proved there for unnamed terminals and for texts without control characters; false for some texts where joining is enabled, C88_refuted), all colours are real ones (C46_refuted shows why), what LineFeedWriter writes keeps the pens in question, commands are the built-in ones; in C88_shell_partial Tab is not pressed. C88_prompt_partial and C88_main_partial: the whole run of the example shell, with file names completed, and with commands and lists of names that may leave any colour but no unfinished sequence; C88_main_partial for a run that ends with Ctrl-C, Ctrl-D, or an error whose message has no escape sequence. C88_files_partial: any editor that completes file names, where the search returns."
  },
  {
   "property": "C89",
   "status": "partial",
   "theorems": [
    "Readline.C89_partial",
    "Readline.C89_found",
    "Readline.C89_string",
    "Readline.C89_own",
    "Readline.C89_lookup",
    "Readline.C89_hidden",
    "Readline.C89_symbol",
    "Readline.C89_documented",
    "Readline.C89_string_refuted",
    "Readline.C89_name_refuted",
    "Readline.C89_symbol_refuted"
   ],
   "note": "C89_partial: what a key does after any sequence of calls; C89_found, C89_string and C89_own: commands by name; C89_documented: the names LookupCommand reports. Two parts are false: GetFunc(c.String()) does not give c when c was created under a name with a small letter or a hyphen (C89_string_refuted, and C89_hidden: no text finds it) or when another command took the name (C89_name_refuted); BindKeySymbol gives the key the command created under the name of the key, or nothing (C89_symbol, C89_symbol_refuted). C89_hidden assumes of strings.ToUpper that its result has no small ASCII letter."
  },
  {
   "property": "C90",
   "status": "partial",
   "theorems": [
    "Readline.C90_partial",
    "Readline.C90_end_partial",
    "Readline.C90_ruler_partial",
    "Readline.C90_main_partial",
    "Readline.C90_rows_partial",
    "Readline.C90_log",
    "Readline.C90_joined",
    "Readline.C90_pen_partial",
    "Readline.C90_refuted_narrow"
   ],
   "note": "C90_partial and C90_end_partial: prompts of two rows, whenever a key is awaited and when the call has ended; C90_rows_partial: the rows when the program has ended; C90_ruler_partial, C90_main_partial and C90_log: the two programs; C90_joined: the columns of joined characters; C90_pen_partial: the colour the terminal is left writing in, where no characters are joined. Missing: keys that redraw (Ctrl-L), texts with tabs, control or joined characters. Where the ruler does not fit into the row, a resize leaves pieces of it (C90_refuted_narrow)."
  },
  {
   "property": "C91",
   "status": "partial",
   "theorems": [
    "Readline.C91_partial",
    "Readline.C91_step_partial",
    "Readline.C91_end_partial"
   ],
   "note": "C91_partial: at every wait for a key since the screen was cleared, with the page of the textbook that is shown; C91_step_partial: what each key does to the other rows, from one wait to the next. C91_end_partial: the same when the call has ended with Enter, Ctrl-C or Ctrl-D, with no LineFeedWriter set. Conditions: those of C80 (ordinary characters, prompts of one row, no completion), and a screen high enough for the prompt. The terminal of the model has no memory of rows that have scrolled away other than its rows with negative numbers, which it empties too; what a real terminal keeps there is not claimed."
  }
 ]
}