{"id": "C01", "title": "No key sequence crashes the editor", "statement": "Whatever keys are typed, whatever the history, clipboard, default text, prompt and resize events are, ReadLine never panics (no slice/index out of range), as long as the terminal leaves room for the widest character of the line.", "quantifier": "all event scripts (keys, nested keys, resizes) of any length, all histories, clipboard contents, prompts, default texts, terminal widths, rune-width functions", "why_tests_cant": "The panic needs a particular combination of cursor position, scroll offset, undo stack and terminal width; the space of key sequences is infinite.", "anchors": ["main.go:ReadLine", "gommand.go:cmdSwapChar", "gommand.go:cmdUndo", "gommand.go:cmdEndOfLine", "buffer.go:getView2", "buffer.go:ResetViewStart", "slice.go"]}
{"id": "C02", "title": "Cursor and scroll offset stay inside the line", "statement": "After every command and every resize, 0 <= ViewStart <= Cursor <= len(Buffer).", "quantifier": "all reachable editor states under any sequence of built-in commands and resizes", "why_tests_cant": "It is an invariant over unbounded histories of commands; a test only looks at a few of them.", "anchors": ["buffer.go:Buffer", "buffer.go:ResetViewStart", "gommand.go"]}
{"id": "C03", "title": "ReadLine's result is the edited line with the right error", "statement": "Enter returns the text of the line with a nil error, Ctrl-C returns the empty string with CtrlC, Ctrl-D on an empty line returns the empty string with io.EOF, and a Tty error returns the empty string and that error; nothing else ends ReadLine.", "quantifier": "all scripts and all environments", "why_tests_cant": "The claim is about every way the loop can end, after any history of edits.", "anchors": ["main.go:ReadLine", "gommand.go:cmdAcceptLine", "gommand.go:cmdInterrupt", "gommand.go:cmdDeleteOrAbort"]}
{"id": "C04", "title": "Typing text and pressing Enter returns that text", "statement": "If the user types only keys that are not bound (each key a valid UTF-8 string) and then Enter, ReadLine returns exactly the concatenation of what was typed.", "quantifier": "all finite sequences of unbound keys, any terminal width that fits, any history, coloring, prompt and predictor", "why_tests_cant": "Infinitely many texts and lengths, including lines longer than the screen that force scrolling.", "anchors": ["gommand.go:SelfInserter.Call", "main.go:LookupCommand", "main.go:ReadLine"]}
{"id": "C05", "title": "Splitting a string into editing units loses nothing", "statement": "Concatenating the String() of the units StringToMoji(s) produces gives back s, for every valid UTF-8 string s (for every terminal feature setting).", "quantifier": "all valid UTF-8 strings, all terminal feature flags, all width functions", "why_tests_cant": "Round trips quantify over all strings; the joiner cases are corner cases of corner cases.", "anchors": ["internal/moji/moji.go:StringToMoji", "internal/moji/codepoint.go:rune2moji", "buffer.go:cell2string"]}
{"id": "C06", "title": "Width and count of a string agree with its units", "statement": "MojiCountInString(s) is the number of units of StringToMoji(s), and GetStringWidth(s) is the sum of their widths.", "quantifier": "all byte strings, all feature flags, all width functions", "why_tests_cant": "Two separately written loops must agree on every input.", "anchors": ["internal/moji/moji.go:StringToMoji", "internal/moji/moji.go:MojiWidthAndCountInString", "buffer.go:GetStringWidth", "buffer.go:MojiCountInString"]}
{"id": "C07", "title": "InsertString and Delete are exact splices", "statement": "InsertString(pos,s) puts the units of s between the units before pos and those from pos on and returns their number; Delete(pos,n) removes exactly units pos..pos+n-1, or does nothing when the range is empty or does not fit; nothing else of the line changes.", "quantifier": "all lines, positions, counts and strings", "why_tests_cant": "In-place slice shifting with overlapping copies is right or wrong depending on all of length, position and count.", "anchors": ["slice.go:sliceInsert", "slice.go:sliceDelete", "buffer.go:InsertString", "buffer.go:Delete"]}
{"id": "C08", "title": "Undo brings back earlier text", "statement": "Each Undo restores a text the line had before, edits are undone in reverse order, and repeating Undo ends with the text the editing started from (the empty line before Default was inserted); one more Undo changes nothing.", "quantifier": "all histories of edits and undos", "why_tests_cant": "Correctness of an undo log is a statement about every sequence of edits, with entries merged by joinUndo.", "anchors": ["gommand.go:cmdUndo", "buffer.go:joinUndo", "buffer.go:Delete", "buffer.go:insert", "repaints.go:ReplaceAndRepaint"]}
{"id": "C09", "title": "Moving the cursor never changes the text", "statement": "BeginningOfLine, EndOfLine, BackwardChar, ForwardChar (without a prediction), BackwardWord, ForwardWord, ClearScreen and a terminal resize leave the line's text unchanged.", "quantifier": "all reachable states, widths, prompts", "why_tests_cant": "Must hold for every line and cursor, including scrolled ones.", "anchors": ["gommand.go", "repaints.go", "main.go:ReadLine"]}
{"id": "C10", "title": "Kill then yank restores the line", "statement": "After KillLine, UnixLineDiscard or UnixWordRubout, an immediate Yank puts the removed text back in place (when the clipboard works and the removed text does not end in CR, LF or NUL).", "quantifier": "all lines and cursor positions", "why_tests_cant": "All texts and positions; round trip through clipboard and re-splitting into units.", "anchors": ["gommand.go:cmdKillLine", "gommand.go:cmdUnixLineDiscard", "gommand.go:cmdUnixWordRubout", "gommand.go:cmdYank"]}
{"id": "C11", "title": "Deletion commands remove exactly what they name", "statement": "BackwardDeleteChar removes the unit left of the cursor, DeleteChar the unit under it, KillLine everything from the cursor on, UnixLineDiscard everything before it, KillWholeLine everything; the rest of the line is untouched and the cursor stays between the two parts.", "quantifier": "all lines and cursor positions", "why_tests_cant": "A boundary error shows only at particular positions (start, end, scrolled).", "anchors": ["gommand.go:cmdBackwardDeleteChar", "gommand.go:cmdDeleteChar", "gommand.go:cmdKillLine", "gommand.go:cmdUnixLineDiscard", "gommand.go:cmdKillWholeLine"]}
{"id": "C12", "title": "Backspace undoes typing", "statement": "Typing an unbound character and then Backspace leaves the line and the cursor as they were.", "quantifier": "all lines, cursor positions and printable runes", "why_tests_cant": "All states and characters.", "anchors": ["gommand.go:SelfInserter.Call", "gommand.go:cmdBackwardDeleteChar"]}
{"id": "C13", "title": "SwapChar exchanges two neighbours only", "statement": "SwapChar exchanges the unit under the cursor with the one on its left (the last two units at the end of the line), keeps every other unit and the line's length, and Undo after it brings the old line back.", "quantifier": "all lines and cursor positions", "why_tests_cant": "Depends on the cursor position relative to both ends and on the undo record.", "anchors": ["gommand.go:cmdSwapChar", "gommand.go:cmdUndo"]}
{"id": "C14", "title": "Word motions stop at word boundaries", "statement": "BackwardWord moves to the start of the word before the cursor and ForwardWord to the start of the next word or the end of the line, words being maximal runs of non-white-space characters.", "quantifier": "all lines and cursor positions", "why_tests_cant": "Loop bounds over arbitrary lines.", "anchors": ["gommand.go:cmdBackwardWord", "gommand.go:cmdForwardWord", "internal/moji/codepoint.go:IsSpaceMoji"]}
{"id": "C15", "title": "CurrentWord and UnixWordRubout respect quotes and touch only the word", "statement": "CurrentWord returns the text from the start of the word under the cursor to the cursor, where white space inside quotation marks does not end a word; UnixWordRubout deletes exactly that word and the white space after it.", "quantifier": "all lines and cursor positions", "why_tests_cant": "Quote state depends on the whole prefix of the line.", "anchors": ["buffer.go:CurrentWordTop", "buffer.go:CurrentWord", "gommand.go:cmdUnixWordRubout"]}
{"id": "C16", "title": "History browsing shows the right entry and stays in range", "statement": "Up/Down show the entry of the history before/after the current one, stop at the two ends (or wrap from the oldest to the line being typed when HistoryCycling is set) and never address an entry outside the history.", "quantifier": "all histories and all sequences of Up/Down and edits", "why_tests_cant": "The pointer invariant ranges over all interleavings of browsing and editing.", "anchors": ["history.go:cmdPreviousHistory", "history.go:cmdNextHistory", "history.go:getHistory"]}
{"id": "C17", "title": "Edits of history entries survive browsing", "statement": "When the user edits an entry (or the new line), browses away and comes back, the text is exactly as it was left; the History object itself is never changed.", "quantifier": "all histories, entries, edits and browsing paths", "why_tests_cant": "Needs every path of Up/Down and edits to be considered.", "anchors": ["history.go:saveModifiedHistory", "history.go:getHistory"]}
{"id": "C18", "title": "Incremental search finds the right line, always terminates and can be cancelled", "statement": "In ISEARCH_BACKWARD the line shown after a typed character is the most recent history line that contains the search text ignoring case (empty if none); Ctrl-R/Ctrl-S always terminate and only ever show a matching line; Enter replaces the whole line by the found one as a single undo step; Escape, Ctrl-C or Ctrl-G leave the text and cursor as they were.", "quantifier": "all histories, all key sequences typed inside the search", "why_tests_cant": "Unbounded interaction inside one command; termination of the wrap-around loops.", "anchors": ["isearch.go:cmdISearchBackward", "isearch.go:caseInsensitiveStringContains"]}
{"id": "C19", "title": "Prediction is a correct suffix of a history line", "statement": "The default predictor returns a text p such that line+p is the most recent history line starting with the current line, or the empty string when there is none.", "quantifier": "all histories and lines", "why_tests_cant": "All histories and lines.", "anchors": ["buffer.go:predictByHistory", "buffer.go:updateSuffix"]}
{"id": "C20", "title": "Prediction never leaks and is accepted faithfully", "statement": "The predicted text is not part of ReadLine's result unless it was accepted with ForwardChar at the end of the line; accepting it turns the line into line+prediction for the line now shown; without PredictColor nothing is ever predicted or inserted.", "quantifier": "all scripts, histories and predictors", "why_tests_cant": "Staleness of the stored prediction depends on the command history.", "anchors": ["gommand.go:cmdForwardChar", "buffer.go:Suffix", "repaints.go:repaint", "main.go:ReadLine"]}
{"id": "C21", "title": "Key lookup precedence and BindKey laws", "statement": "A key runs the command bound in the Editor, else the one in GlobalKeyMap, else it inserts itself; BindKey(k,f) affects only k, the last binding wins, and BindKey(k,nil) removes the binding so that the outer one is visible again.", "quantifier": "all sequences of BindKey calls and all keys", "why_tests_cant": "All histories of bindings.", "anchors": ["keymap.go:BindKey", "keymap.go:Lookup", "main.go:LookupCommand"]}
{"id": "C22", "title": "Reading keys from the terminal loses, duplicates and reorders nothing", "statement": "GetKeys/GetRawKey return keys whose concatenation is exactly the UTF-8 text of the runes read (NUL ignored, UTF-16 surrogate pairs joined), an escape sequence delivered in one burst is one key, and _Tty.GetKey delivers the keys of a burst one by one in order.", "quantifier": "all rune streams and all patterns of the Buffered() flag", "why_tests_cant": "Burst boundaries come from the OS: every split must be considered.", "anchors": ["getkey.go:GetRawKey", "getkey.go:GetKeys", "tty8.go:GetKey"]}
{"id": "C23", "title": "tty10 delivers every byte exactly once", "statement": "The concatenation of the keys tty10.Tty.GetKey returns is the concatenation of the chunks read from standard input, each key is non-empty, a chunk starting with ESC is one key, and otherwise each key is one character.", "quantifier": "all sequences of chunks", "why_tests_cant": "Chunk boundaries are chosen by the OS.", "anchors": ["tty10/main.go:GetKey"]}
{"id": "C24", "title": "Colour sequences round-trip", "statement": "SGR1..SGR4, Add and Chain build a ColorSequence whose WriteTo prints exactly the given SGR parameters in order, Chain being concatenation, as long as there are at most seven parameters of one byte each.", "quantifier": "all parameter lists", "why_tests_cant": "Bit packing into a signed 64-bit word: overflow appears only for particular lengths and values.", "anchors": ["color.go:ColorSequence", "color.go:Add", "color.go:Chain", "color.go:WriteTo", "color.go:SGR4"]}
{"id": "C25", "title": "Prompt width ignores escape sequences and earlier lines", "statement": "The column where editing starts is the display width of the last line of the prompt with ESC[..letter and ESC]..BEL sequences removed and backspaces applied.", "quantifier": "all prompt strings", "why_tests_cant": "All byte strings.", "anchors": ["main.go:cutEscapeSequenceAndOldLine", "main.go:callPromptWriter"]}
{"id": "C26", "title": "After a command the screen shows the visible part of the line", "statement": "After a repaint the terminal row shows, from the column after the prompt, exactly the units from ViewStart on that fit into the view, then blanks, and the terminal cursor stands in the column of the logical cursor.", "quantifier": "all lines, cursor positions, scroll offsets, widths and previous contents of the row", "why_tests_cant": "All lines and widths, wide characters and scrolled states.", "anchors": ["repaints.go:repaint", "buffer.go:getView", "buffer.go:puts", "repaints.go:GotoHead"]}
{"id": "C27", "title": "The edited line never wraps onto the next row", "statement": "No repaint prints beyond the last column of the terminal: the visible units, prediction included, and the cursor stay within ViewWidth.", "quantifier": "all reachable states with units that fit", "why_tests_cant": "Scroll arithmetic with mixed widths over all command sequences.", "anchors": ["buffer.go:ViewWidth", "buffer.go:ResetViewStart", "gommand.go:cmdForwardChar", "gommand.go:cmdSwapChar", "gommand.go:cmdEndOfLine"]}
{"id": "C28", "title": "What a unit prints is as wide as it says", "statement": "Printing a unit moves the terminal cursor by exactly its Width(): control characters as ^X, escaped code points as <HEX>, tabs as 1..4 blanks, save/restore sequences net to their width.", "quantifier": "all runes and positions", "why_tests_cant": "All code points.", "anchors": ["internal/moji/codepoint.go", "internal/moji/moji.go:PrintTo", "internal/moji/width.go:lenEscaped"]}
{"id": "C29", "title": "Tabs end at multiples of four", "statement": "After a repaint every tab of the line fills up to the next column (counted from the start of the line) that is a multiple of four.", "quantifier": "all lines with any number of tabs", "why_tests_cant": "Positions of later tabs depend on all earlier units.", "anchors": ["repaints.go:refreshColor", "internal/moji/codepoint.go:Tab"]}
{"id": "C30", "title": "Resize is atomic and harmless", "statement": "A resize callback never interleaves with a running command, it changes no text and no cursor, and every schedule of the resize goroutine and the editing loop has the effect of some sequence of whole commands and whole resizes; nobody deadlocks.", "quantifier": "all schedules of the two threads", "why_tests_cant": "Schedules.", "anchors": ["main.go:ReadLine", "tty8.go:Open", "tty10/main.go:Open"]}
{"id": "C31", "title": "tty10.Close stops the watcher", "statement": "When tty10.Tty.Close returns after Open, the resize goroutine has been told to stop and calls the callback no more, and Close does not deadlock.", "quantifier": "all schedules of ticker, callback and Close", "why_tests_cant": "Schedules.", "anchors": ["tty10/main.go:Open", "tty10/main.go:Close"]}
{"id": "C32", "title": "The width cache is invisible", "statement": "The width used for a character is the one set last by SetCharWidth since the last ResetCharWidth, or else the terminal width function's value, regardless of which widths were asked before.", "quantifier": "all sequences of SetCharWidth, ResetCharWidth and width queries", "why_tests_cant": "All histories of cache operations.", "anchors": ["internal/moji/width.go:getWidth", "internal/moji/width.go:SetCharWidth", "internal/moji/width.go:ResetCharWidth"]}
{"id": "C33", "title": "Completion changes only the word before the cursor", "statement": "CmdCompletion and CmdCompletionOrList leave the text before the last word and the text after the cursor unchanged, and insert either nothing, the single candidate (quoted if needed) with the postfix, or the common prefix of all candidates.", "quantifier": "all lines, cursor positions and candidate lists", "why_tests_cant": "All lines and candidate sets.", "anchors": ["completion/main.go:complete", "completion/main.go:split", "repaints.go:ReplaceAndRepaint"]}
{"id": "C34", "title": "Common prefix of the candidates", "statement": "The completed text is a prefix (ignoring case) of every candidate, it is the longest such, and computing it never panics.", "quantifier": "all non-empty candidate lists", "why_tests_cant": "All lists of strings, including case pairs of different UTF-8 length.", "anchors": ["completion/main.go:commonPrefix", "completion/main.go:removeUnmatches"]}
{"id": "C35", "title": "File completion terminates", "statement": "completion.File.List returns for every directory tree and every typed word.", "quantifier": "all file-system trees and all fields", "why_tests_cant": "Needs a particular directory layout; a hang is not observable by a passing test.", "anchors": ["completion/file.go:List"]}
{"id": "C36", "title": "Key and command names", "statement": "BindKeyFunc binds the key code of a (case-insensitive, - or _) name or returns an error and changes nothing; GetFunc finds every built-in command by name; BindKeySymbol(km,key,func) binds key to the named command.", "quantifier": "all key names and function names", "why_tests_cant": "The error branch and the table quantify over all strings.", "anchors": ["nameutils/main.go", "keys/naming.go", "gommand.go:NewGoCommand"]}
{"id": "C37", "title": "VimBatch colours by quotation and %..% areas", "statement": "A character gets the %-area colour iff it is inside or on the border of a %..% area, else the quotation colour iff inside or on the border of \"..\", independently of what was coloured before Init.", "quantifier": "all lines", "why_tests_cant": "All texts.", "anchors": ["coloring/vimbatch.go"]}
{"id": "C38", "title": "Colouring, prompt text and screen width do not influence the result", "statement": "The text ReadLine returns depends only on the keys, history, clipboard, default text, bindings and predictor: two runs that differ in Coloring or output-side settings give the same text, cursor and undo history.", "quantifier": "all scripts and all pairs of Coloring implementations", "why_tests_cant": "Non-interference is a statement about pairs of runs.", "anchors": ["repaints.go:refreshColor", "buffer.go:puts"]}
{"id": "C39", "title": "The cursor is visible again when ReadLine returns", "statement": "On every path out of ReadLine the last thing written to the terminal makes the cursor visible, and whenever a key is awaited the cursor is visible.", "quantifier": "all scripts and all exits", "why_tests_cant": "All exit paths after any history.", "anchors": ["main.go:ReadLine", "gommand.go:cmdQuotedInsert", "isearch.go"]}
{"id": "C40", "title": "Quoted insert is literal", "statement": "After QuotedInsert the next key is inserted as text even if it is bound to a command or is a control character.", "quantifier": "all states and all keys", "why_tests_cant": "All keys.", "anchors": ["gommand.go:cmdQuotedInsert"]}
{"id": "C41", "title": "YankWithQuote quotes reversibly", "statement": "When the clipboard contains a blank and does not start with a quotation mark, YankWithQuote inserts it enclosed in quotation marks with inner ones doubled, so that one-line text can be recovered by un-quoting; otherwise it inserts it unchanged.", "quantifier": "all clipboard contents", "why_tests_cant": "All strings.", "anchors": ["gommand.go:cmdYankWithQuote"]}
{"id": "C42", "title": "Consecutive ReadLine calls are independent", "statement": "A ReadLine call starts with Default as text, no undo of an earlier line, no pending characters and an unmodified history, whatever happened in earlier calls; only Cursor (clipped to the line) is carried over.", "quantifier": "all earlier sessions", "why_tests_cant": "All earlier histories.", "anchors": ["main.go:ReadLine"]}
{"id": "C43", "title": "Typing a joined character equals pasting it", "statement": "Typing the code points of a joined emoji one key at a time gives the same line as inserting the whole string at once, and no typed code point is lost.", "quantifier": "all sequences of code points and feature flags", "why_tests_cant": "Key-by-key state (pending) against whole-string parsing over all sequences.", "anchors": ["gommand.go:SelfInserter.Call", "internal/moji/moji.go:StringToMoji"]}
{"id": "C44", "title": "A scripted session terminates", "statement": "With auto.Pilot and the default bindings ReadLine returns after finitely many steps, for every finite script; the keys are consumed in order.", "quantifier": "all scripts", "why_tests_cant": "Termination over all scripts.", "anchors": ["auto/main.go:GetKey", "main.go:ReadLine", "isearch.go"]}
{"id": "C45", "title": "simplehistory is a faithful log", "statement": "After any sequence of Add calls Len is their number and At(i) is the i-th added string.", "quantifier": "all sequences of Add", "why_tests_cant": "All histories.", "anchors": ["simplehistory/main.go"]}
{"id": "C46", "title": "Characters are printed in the colour the Coloring gives them", "statement": "Whenever characters of the line are printed, each is printed in the colour the Coloring answers when it is told the whole line in order with the cursor mark before the character the cursor is on; afterwards the default colour is in force again, in particular whenever a key is awaited.", "quantifier": "all colourings, lines, cursors, printed ranges and sessions", "why_tests_cant": "Colourings are stateful and only changes of colour are written, so the colour of a character depends on everything printed before it.", "anchors": ["buffer.go:RefreshColor", "buffer.go:puts", "repaints.go", "color.go:WriteTo", "coloring/vimbatch.go"]}
{"id": "C47", "title": "Key names stand for the bytes their keys send", "statement": "A command bound by key name, in any spelling, is the one that runs when the editor reads what that key of an xterm sends; keys that send something else do what they did before.", "quantifier": "all key names, spellings, key maps, commands and states", "why_tests_cant": "A wrong entry shows only when exactly that key is bound and pressed on a real terminal.", "anchors": ["keys/code.go", "keys/naming.go", "nameutils/main.go:BindKeyFunc", "main.go:LookupCommand"]}
{"id": "C48", "title": "Commands are on the keys their documentation names", "statement": "Without own bindings, pressing the key named in the documentation of a command runs that command; a key without a command inserts what it sends.", "quantifier": "all documented keys, all states", "why_tests_cant": "All states of the editor.", "anchors": ["keymap.go:GlobalKeyMap", "gommand.go", "history.go", "isearch.go", "main.go:LookupCommand"]}
{"id": "C49", "title": "Lines typed or pasted ahead are read by one ReadLine each", "statement": "If the terminal delivers lines, each followed by Enter, in pieces of any size, then consecutive calls of ReadLine on the same Tty return these lines, one per call and in order, wherever resizes come in between, and what follows the last line is left for the next call. If the terminal fails in the middle of a line, the call returns the error of the terminal and no text, and reads nothing beyond the failure.", "quantifier": "all lists of lines of plain characters, all settings per call, all cuts of the input into reads or runes, all resizes", "why_tests_cant": "Unboundedly many lines, cuts and interleavings.", "anchors": ["main.go:ReadLine", "tty10/main.go:GetKey", "tty8.go:GetKey", "getkey.go:getRawKey", "getkey.go:GetKeys", "auto/main.go:GetKey"]}
{"id": "C50", "title": "ReadLine reads no further than it has to", "statement": "Input that a call of ReadLine has not read when it returns is still unread, and had no influence on the call: with any other input in its place the result, the output, the buffer, the undo log, the clipboard and all other fields would be the same.", "quantifier": "all key maps without own Go commands, all start states, all inputs", "why_tests_cant": "All inputs and everything that could follow them.", "anchors": ["main.go:ReadLine", "main.go:loop", "gommand.go:cmdQuotedInsert", "isearch.go:cmdISearchBackward"]}
{"id": "C51", "title": "What the screen shows when ReadLine returns", "statement": "When editing ends, the row shows the final line without a prediction; then what LineFeedWriter writes (a line feed if there is none) is output exactly once, LineFeedWriter being told the reason of the end, and after that only the sequence that shows the cursor. When the Tty fails, no line feed is written.", "quantifier": "all sessions of built-in commands; the row for sessions in which C26 holds", "why_tests_cant": "All key sequences and LineFeedWriters.", "anchors": ["main.go:ReadLine", "buffer.go:repaintWithoutUpdateSuffix", "gommand.go:cmdInterrupt"]}
{"id": "C52", "title": "Keys are read in raw mode and the terminal is left in the mode it was found in", "statement": "After each call of GetKey, whether it gives a key or an error, the terminal is in the mode it was in before, and every read of the terminal was done in raw mode.", "quantifier": "all modes, inputs, read errors and failures to set raw mode, any number of calls", "why_tests_cant": "All inputs and all places where the terminal can fail.", "anchors": ["getkey.go:GetKey", "getkey.go:GetKeys", "tty8.go:GetKey", "tty10/main.go:getKey"]}
{"id": "C53", "title": "The width ReadLine knows is the width of the window", "statement": "After any sequence of window size signals the width last reported through onResize (or found at the start) is the width of the window, and no report repeats the width that was known before.", "quantifier": "all sequences of window sizes", "why_tests_cant": "All sequences of sizes.", "anchors": ["tty8.go:Open", "tty10/main.go:Open"]}
{"id": "C54", "title": "While searching, the row shows what is searched for and what was found", "statement": "Whenever ISEARCH_BACKWARD waits for a key, the row shows the prompt and behind it as much as fits of (i-search)[text]:line, where text is what was typed so far and line the history entry found for it, with the cursor behind it; it waits before each key it reads.", "quantifier": "every call of ISEARCH_BACKWARD, from any state, with any history, input and screen row", "why_tests_cant": "All histories, key sequences and widths; the existing tests do not draw.", "anchors": ["isearch.go:cmdISearchBackward"]}
{"id": "C55", "title": "What was written is on the terminal when ReadLine waits for a key or returns", "statement": "All output passes through one bufio.Writer, in order and without loss; at every moment at which a key is awaited, and when ReadLine returns, all of it has arrived at the terminal. If the terminal stops taking bytes, what arrived is the beginning of what was written.", "quantifier": "all buffer sizes, all output, all schedules of the two goroutines, all failures of the terminal", "why_tests_cant": "All schedules and buffer sizes.", "anchors": ["buffer.go:GetKey", "main.go:ReadLine", "repaints.go:RepaintLastLine", "main.go:onResize"]}
{"id": "C56", "title": "Init fills in what is missing and nothing else", "statement": "Init leaves fields that are set as they are, gives every nil field its default, does nothing when called again, and afterwards Out leads to Writer through one buffer, a *bufio.Writer being used as it is.", "quantifier": "all values of the fields, all nestings of writers", "why_tests_cant": "All combinations of fields and writers.", "anchors": ["main.go:Init"]}
{"id": "C57", "title": "No character comes from nowhere", "statement": "Every code point of the line at each moment, of the clipboard, of the displayed prediction and of the text ReadLine returns is a code point of something the editor was given: the default text, a history line, the clipboard, the predictor's answer, the text a completion command inserts, or a typed key; the only exceptions are the quotation mark YankWithQuote puts around the clipboard, and U+200D and U+FFFD when join controls are present. More generally, any set of code points that contains those of the sources contains all that the line ever holds.", "quantifier": "for every editor configuration with built-in commands, every sequence of keys whose keys that begin with a join control are whole characters, every default text, history, clipboard, predictor and completion, and every reachable state", "why_tests_cant": "Tests compare chosen lines with expected ones; that no sequence of edits, undos, searches, swaps and completions can ever bring a foreign character (a stray byte, a half-decoded rune) into the line is a statement about all executions.", "anchors": ["buffer.go:insertString", "gommand.go:cmdYankWithQuote", "gommand.go:cmdUndo", "isearch.go", "history.go", "completion/main.go:Complete"]}
{"id": "C58", "title": "The bytes that are written make the terminal show the line", "statement": "Whenever readline waits for a key, a VT100-like terminal (UTF-8, cursor movement, erasing, wrapping, scrolling) that has received exactly the bytes written so far shows the line behind the prompt: characters around the cursor, nothing else up to the end of the row (but a prediction if the cursor is at the end), all in one row and within the view, with the terminal's cursor at the character the editor's cursor stands at.", "quantifier": "for every sequence of keys and of changes of the width, every line, history, default text, clipboard and prediction, every width table and every terminal that agrees with it, whatever the terminal showed before", "why_tests_cant": "A test compares the bytes of one session with recorded ones. That the sequences of columns, erasures and glyphs of incremental drawing always add up to the right picture needs an invariant relating editor, output and screen over all sessions.", "anchors": ["repaints.go", "buffer.go:Puts", "buffer.go:GotoHead", "buffer.go:Eraseline", "main.go:ReadLine", "internal/moji/codepoint.go:PrintTo"]}
{"id": "C59", "title": "Own commands that follow four rules are as safe as the built-in ones", "statement": "A program may bind its own functions to keys, made of the exported methods and fields of Buffer and of other commands. If such a function names only positions of the line, has the cursor and the scroll offset inside the line whenever something is drawn and when it returns, and does not assign Buffer, then in every session cursor and scroll offset are inside the line whenever a key is awaited, the session panics only where a session of built-in commands may panic, and Undo goes back line by line to the empty line. ReplaceAndRepaint puts the text in the place of the characters between the position and the cursor.", "quantifier": "for every function of this kind, whatever it decides from what it sees, every combination of such functions and built-in commands on keys, every key sequence, history, default text and terminal", "why_tests_cant": "The functions are unknown to the authors of the library. That the rules suffice needs an induction over all programs made of the exported calls and all sessions that use them.", "anchors": ["buffer.go", "repaints.go", "keymap.go:Command", "gommand.go:GoCommand", "examples/example4.go:cmdStartEditor"]}
{"id": "C60", "title": "On a terminal that the environment does not name, every code point is a character of its own", "statement": "The flags of the terminal depend on five environment variables only. If they name none of the terminals that are known to join characters (Visual Studio Code started from Windows Terminal is not one), then every text is cut into its code points, the edited line consists of single code points whenever a key is awaited, nothing waits to be joined, and without exception for joiners a kill and a yank restore the line, Backspace takes back any typed code point, one Undo takes back a search and typing a text puts its code points before the cursor. With the width function of the orgxwidth build every character takes at least one column on every terminal and at most eight on an unnamed one, and printable text is shown as property C58 says.", "quantifier": "for every environment, every text, every session of built-in commands and every Unicode width table", "why_tests_cant": "The variables are read once when the program starts, so a test process sees one environment only; the claim is about all environments, all texts and all sessions.", "anchors": ["internal/moji/termcheck.go", "internal/moji/orgxwidth.go:newRuneWidth", "internal/moji/codepoint.go:rune2moji", "internal/moji/moji.go:StringToMoji"]}
{"id": "C61", "title": "The texts edited cannot control the terminal", "statement": "Whatever the texts are that a session edits (default text, history, clipboard, predictions, typed keys, what is searched), the bytes written for them contain no control character except the blanks, backspaces, ESC 7 and ESC 8 with which readline itself pads a character. Such bytes change nothing on the terminal but the row of the cursor from its column on and leave no control sequence unfinished. This holds for all texts on terminals that the environment does not name. On those it names it holds for texts without control characters and for texts without joining characters, but not for all texts: a control character behind U+200D is sent as it is.", "quantifier": "for every environment, every text, key sequence and clipboard, every session of built-in and completion commands, at every time a key is awaited and at the end", "why_tests_cant": "A test can try some escape sequences in some texts; the claim is that no text at all reaches the terminal unfiltered, whichever command draws it.", "anchors": ["internal/moji/codepoint.go:PrintTo", "internal/moji/moji.go:PrintTo", "buffer.go:puts", "isearch.go:cmdISearchBackward"]}
{"id": "C62", "title": "A line entered before can be entered again", "statement": "In a program that calls ReadLine in a loop and adds each line to the history (examples/example3.go, example2.go), n times Up and Enter enters the n-th line from the end again, whatever was typed before; searching for a word and Enter twice enters the newest line that contains it; typing a beginning, accepting the prediction and Enter enters the newest line with that beginning; and typing a line enters it. So after any sequence of such entries the history is exactly the list of lines the user meant, and Ctrl-D on the empty line ends the program. The loop always ends when the input does, and with the default keys no keys but Ctrl-T can make it panic as long as the texts are plain. What the calls write appears one after the other: no call takes back or loses what an earlier one has written, and the terminal's cursor is shown whenever a key is awaited and when the program ends.", "quantifier": "for every number of lines, every line of keys that fit together, every way of entering each line, every n up to the number of lines, every word, and resizes at any time", "why_tests_cant": "A test can enter a few lines; the claim ties all calls of a program together, for any number of lines and any mixture of ways to enter them.", "anchors": ["examples/example3.go:main", "examples/example2.go:main", "simplehistory/main.go:Add", "history.go:cmdPreviousHistory", "isearch.go:cmdISearchBackward", "gommand.go:cmdForwardChar", "main.go:ReadLine"]}
{"id": "C63", "title": "What is shown for a character tells which one it is", "statement": "On every terminal every character of a line other than a tab is shown in one of four ways: as itself, as itself with two columns reserved for it, as ^X where X is the character 64 places higher (characters below U+0020), or as <N> where N is its number in upper-case hexadecimal digits (characters the terminal cannot show). No two characters are shown in the same way. (Two different lines may look the same, because a line may contain the characters ^ and A or blanks.)", "quantifier": "for every code point, every terminal configuration, and every unit printed in every session of built-in and completion commands", "why_tests_cant": "There are more than a million code points and arbitrary width tables; a wrong digit or a wrong boundary shows for a few of them only.", "anchors": ["internal/moji/codepoint.go:rune2moji", "internal/moji/codepoint.go:PrintTo", "internal/moji/moji.go:saveCursorAfterN"]}
{"id": "C64", "title": "One Undo takes back one command", "statement": "After any command that changes the line (typing, quoted insert, deletion, kill, transposition, search, completion, yank, taking over the prediction) one Undo restores the line, the list of changes that can be undone and the waiting joiner exactly as they were before the command. The cursor is then behind what was brought back: one place to the right after DeleteChar and SwapChar, at the end after KillLine, KillWholeLine and a search, where it was before otherwise.", "quantifier": "for every environment of built-in and completion commands, every history, clipboard, key sequence, and every state reached in a calm session", "why_tests_cant": "What an Undo does depends on the whole log of earlier changes and on how the removed text is cut into units again; the number of histories is unbounded.", "anchors": ["gommand.go:cmdUndo", "buffer.go:Delete", "buffer.go:insertString", "buffer.go:joinUndo", "repaints.go:InsertAndRepaint", "repaints.go:ReplaceAndRepaint", "gommand.go:cmdKillLine", "gommand.go:cmdYank", "history.go:cmdPreviousHistory", "isearch.go:cmdISearchBackward"]}
{"id": "C65", "title": "The clipboard holds the text that was cut last", "statement": "Every KillLine, UnixLineDiscard and UnixWordRubout writes to the clipboard exactly the text that it takes out of the line, and nothing else in a session writes to it: no other command, no resize, neither the start nor the end of ReadLine. So wherever Yank is given, in the same call of ReadLine or a later one, it inserts the text that was cut last, or what the clipboard held in the beginning if nothing was cut. A text that was cut is kept until another text is cut or removed by a kill command.", "quantifier": "for every environment of built-in and completion commands, every key sequence, resizes at any time, any number of calls of ReadLine on the same editor, every initial content of the clipboard", "why_tests_cant": "Any number of other commands can be given between the cut and the Yank; a test can try only a few of them.", "anchors": ["gommand.go:cmdKillLine", "gommand.go:cmdUnixLineDiscard", "gommand.go:cmdUnixWordRubout", "gommand.go:cmdYank", "gommand.go:cmdKillWholeLine", "main.go:ReadLine"]}
{"id": "C66", "title": "The exported methods of Buffer do what their comments say", "statement": "A function bound to a key can rely on the exported methods of Buffer: InsertString puts the characters of the text at the position and returns their count; Delete takes out exactly Buffer[pos:pos+n] and returns the columns it took, or does nothing and returns 0 if n is not positive or the range goes beyond the end; GetWidthBetween is the sum of the columns; SubString is the text between two positions; CurrentWordTop and CurrentWord give the word before the cursor; GetKey takes the next key out of the input and leaves resizes waiting; InsertAndRepaint and ReplaceAndRepaint replace the characters between the position and the cursor and put the cursor behind the text; the other repainting methods change neither line, cursor nor undo log. None of them touches the clipboard, the position in the history or the waiting joiner. The methods that do not draw panic exactly if a position, or the cursor when it is used, is outside the line.", "quantifier": "for every state, every line of whole units, every argument, and every call of every own command that follows the rules of C59 in every session", "why_tests_cant": "The functions that call these methods are not part of the library; the contract has to hold in all states and for all arguments, also unusual ones.", "anchors": ["buffer.go:InsertString", "buffer.go:Delete", "buffer.go:GetWidthBetween", "buffer.go:SubString", "buffer.go:CurrentWordTop", "buffer.go:CurrentWord", "buffer.go:GetKey", "buffer.go:ResetViewStart", "repaints.go:InsertAndRepaint", "repaints.go:ReplaceAndRepaint", "repaints.go:GotoHead", "repaints.go:DrawFromHead", "repaints.go:RepaintAfterPrompt", "repaints.go:RepaintAll", "repaints.go:RepaintLastLine"]}
{"id": "C67", "title": "The line is scrolled no further than needed", "statement": "When a line does not fit, the window follows the cursor with the least movement. At the start, after a resize and after every command that redraws from the cursor, the line is scrolled just so far that the character under the cursor can be seen: scrolled by one character less it could not. Every other command leaves the window where it is, moves it to the left just until the cursor is inside, or scrolls to the right by the least that makes room for what is left of the cursor. Motions, deletions and typing leave the window where it is if the cursor is still inside. A line that always fits is always shown from its beginning.", "quantifier": "for every reachable state of every session with built-in commands, every key, resize, line and width of the terminal", "why_tests_cant": "Whether one character less would have sufficed depends on the widths of all characters between the window's edge and the cursor, for every width of the terminal and every way the window came to be where it is.", "anchors": ["buffer.go:ResetViewStart", "gommand.go:cmdEndOfLine", "gommand.go:cmdForwardChar", "gommand.go:cmdBackwardChar", "gommand.go:cmdBackwardDeleteChar", "gommand.go:cmdSwapChar", "gommand.go:cmdUnixWordRubout", "gommand.go:cmdBackwardWord", "gommand.go:cmdForwardWord", "gommand.go:SelfInserter.Call", "main.go:ReadLine"]}
{"id": "C68", "title": "Output that fails neither stops nor changes the editing", "statement": "If the terminal stops taking bytes at any moment, ReadLine goes on reading keys and returns what it would have returned; what the terminal has got is the beginning of what it would have got. The same holds for all later calls on the same editor.", "quantifier": "for every number of bytes the terminal takes, every size of the buffer, every sequence of keys and resizes with built-in commands and any number of calls", "why_tests_cant": "The failure can come at every byte of the output, with any content of the buffer, and whether the editing is disturbed depends on all later keys.", "anchors": ["main.go:ReadLine", "main.go:callPromptWriter", "repaints.go:RepaintAll", "color.go:WriteTo"]}
{"id": "C69", "title": "ReadLine gives back what it took, whichever way it is left", "statement": "Whether ReadLine returns a line, an error of the terminal or panics, afterwards the editor's mutex is unlocked and the terminal it opened is closed, so that the program can call ReadLine again.", "quantifier": "for any number of calls on one editor with the default Tty, every failure of opening the terminal or asking its size, every sequence of keys, errors and resizes, every binding", "why_tests_cant": "Which resources are held depends on where in which call the error or panic happens and on all calls before; a deadlock shows only at a key of a later call.", "anchors": ["main.go:ReadLine", "tty8.go:Open", "tty8.go:Close"]}
{"id": "C70", "title": "Bytes that are not UTF-8 are edited as U+FFFD, and ReadLine returns only UTF-8", "statement": "If the default text, the history or the clipboard contains bytes that are not UTF-8, ReadLine treats each byte at which no character begins as the character U+FFFD and leaves everything else unharmed; and whatever bytes come in, the text it returns is valid UTF-8.", "quantifier": "for all byte strings, settings, own commands and sequences of keys and resizes", "why_tests_cant": "There are infinitely many malformed byte strings, truncated or overlong at every place of the line, and they can enter from five sources.", "anchors": ["internal/moji/moji.go:StringToMoji", "buffer.go:InsertString", "main.go:ReadLine", "gommand.go:CmdYank", "history.go:CmdPreviousHistory", "isearch.go:CmdISearchBackward"]}
{"id": "C71", "title": "The predictor of example160 completes a line to the newest history line that begins with it, blanks at the ends aside", "statement": "With the predictor of examples/example160.go the prediction is what the newest history line goes on with that begins as the line does, blanks at the ends of both left aside, and nothing if there is none; accepting it makes the line that history line, blanks at the ends aside.", "quantifier": "for all histories, lines, character settings and sequences of keys and resizes", "why_tests_cant": "Blanks of 25 kinds can stand at either end of the line and of each history line, between words and next to bytes that are no text; a test tries a few of them.", "anchors": ["examples/example160.go:predictByHistory", "examples/example160.go:main", "buffer.go:updateSuffix", "gommand.go:cmdForwardChar"]}
{"id": "C72", "title": "The colours on the screen are those of the present line", "statement": "Whenever a key is awaited, every column in which a unit of the line is shown was last printed in the colour the Coloring gives to that unit in the line as it is now, although parts of the row were printed by earlier keys, when the line was another one.", "quantifier": "for all Colorings that do not look at the cursor mark, all character settings, terminal widths, prompts and sequences of keys and resizes", "why_tests_cant": "The colour of a unit depends on all units before it, and what a key prints again is chosen by optimisations that differ from command to command; a test would have to keep a picture of the screen in colours for every sequence of keys.", "anchors": ["repaints.go:RefreshColor", "repaints.go:puts", "repaints.go:repaint", "gommand.go:cmdForwardChar", "gommand.go:cmdSelfInsert", "gommand.go:cmdSwapChar", "coloring/vimbatch.go"]}
{"id": "C73", "title": "The keys of examples/example3.go do what the program binds them to", "statement": "In the program of example3 Ctrl-S, Ctrl-D, Ctrl-A, Ctrl-F move by a unit or a word, Ctrl-E and Ctrl-X fetch the line before or after, Ctrl-G deletes the unit at the cursor, Ctrl-B, Ctrl-P and Ctrl-N insert themselves, every other key does what it does by default, the program ends only by Ctrl-C or when there is nothing to read, and then its history is the list of the lines entered.", "quantifier": "for all states of all sessions of the program, all character settings, terminal widths and sequences of keys and resizes", "why_tests_cant": "The bindings of an Editor, those of the package and the fixed keys of the search are three tables that hide one another; which table answers depends on the mode and on every key pressed before, and the program has no end but by Ctrl-C.", "anchors": ["examples/example3.go:main", "main.go:LookupCommand", "keymap.go:BindKey", "gommand.go:SelfInserter"]}
{"id": "C74", "title": "One key prints at most four rows of the line, however long the line is", "statement": "Between two waits for a key the editor shows at most 4*max(1, width-4) units of text and sets at most 4*(max(1, width-4)+1) colours, where width is the width of the terminal, provided no code point has a negative width and a joined unit takes at least one column. The length of the line, the history, the clipboard text, the prediction and the search text do not matter. Prompts, the strings of PredictColor and lists of candidates are not counted.", "quantifier": "for all steps of all sessions with bindings to built-in commands, all texts, histories, clipboards, colourings, prompts and terminal widths; for sessions without resizes also over the whole output", "why_tests_cant": "The bound follows from every unit being at least one column wide and from the cursor never being more than one row away from the first visible unit, in every state every command can leave behind; a test sees a few line lengths.", "anchors": ["repaints.go:repaintWithoutUpdateSuffix", "buffer.go:puts", "buffer.go:ResetViewStart", "gommand.go:cmdEndOfLine", "gommand.go:cmdForwardChar", "isearch.go:cmdISearchBackward", "internal/moji/codepoint.go:rune2moji"]}
{"id": "C75", "title": "A call of ReadLine is left alone by the calls before it", "statement": "When a program calls ReadLine again and again, once a call has returned nothing of its line is written any more and its goroutine does nothing that a later call can notice: every later call does, shows and returns what it would if it ran by itself.", "quantifier": "for all programs that call ReadLine any number of times with any settings, all interleavings of the goroutines of all calls (the code cut into steps in any way), all keys and all window sizes", "why_tests_cant": "The goroutine that watches the window size outlives its call unless Close waits for it; whether it disturbs the next call depends on the schedule, and a test sees one schedule.", "anchors": ["main.go:ReadLine", "tty8.go:Open", "tty8.go:Close", "tty10/main.go:Open", "tty10/main.go:Close"]}
{"id": "C76", "title": "The completion key completes file names", "statement": "With completion.File bound to a key, pressing the key completes the word before the cursor from the directory listings: a single file that fits is put in with the suffix, a single directory is put in with a slash so that the next press goes on inside it, several are completed as far as they agree or listed without their directory, and nothing happens if none fits; the rest of the line stays, and the editor always comes back.", "quantifier": "for all file systems, all lines and cursor positions, all words with or without quotation marks and directories, all settings, and all sessions", "why_tests_cant": "The outcome depends on the shape of the file system (empty directories, unreadable ones, names that differ in case only) together with the quoting of the line; the repository has no test of completion.File at all.", "anchors": ["completion/file.go:List", "completion/main.go:complete", "completion/main.go:split", "completion/main.go:CmdCompletionOrList", "examples/example2.go:main"]}
{"id": "C77", "title": "The shell of examples/example2.go runs what is entered", "statement": "The tiny shell runs one command for every line that has words, in the order in which the lines were entered, with just these words as its arguments; the history is these lines; a file name that the completion key has put in reaches the command as one word; and the shell goes on until Ctrl-D or Ctrl-C.", "quantifier": "for all sequences of keys and window sizes, all file systems, all effects the commands have, all ways of entering a line (typed, fetched from the history, searched for, predicted, completed), and all settings of the terminal", "why_tests_cant": "It is a statement about whole sessions of a program whose state (history, files, clipboard, keys typed ahead) is carried from line to line; examples are not tested at all.", "anchors": ["examples/example2.go:main", "main.go:ReadLine", "simplehistory/main.go:Add", "completion/main.go:complete"]}
{"id": "C78", "title": "On characters that stand alone the editor is the editor of the textbook", "statement": "Take a line editor as a textbook describes it: a list of characters in two halves around the cursor, a clipboard, a history with a draft for every entry, and a list of earlier lines for Undo. If every character in the texts and keys stands alone (none attaches to the character before it), then for every sequence of keys ReadLine returns the text and the error of that editor, and whenever a key is awaited the line, the cursor and the clipboard are those of that editor after the same keys. ReadLine panics exactly where that editor is said to crash.", "quantifier": "for all sequences of keys and window sizes, all texts, histories and clipboards over characters that stand alone, all bindings of keys to the commands of the package except completion, and all lengths", "why_tests_cant": "Tests compare single commands on single lines with an expected line; that all commands together, in any order and number, with history, search, predictions and Undo, are those of a small independent editor is a refinement between two state machines.", "anchors": ["main.go:ReadLine", "gommand.go", "history.go", "isearch.go", "buffer.go", "keymap.go:GlobalKeyMap"]}
{"id": "C79", "title": "A program that reads line after line is the program of the textbook", "statement": "A program calls ReadLine on the same Editor again and again, adds each line it got to the history if its own rule says so, and stops at the first error. Over ordinary characters its history and the error it stops with are those of the same program written with the textbook editor of C78. What a call leaves to the next one is the clipboard and the keys not yet read, nothing else of the line.", "quantifier": "for all sequences of keys, all histories, clipboards and default texts over ordinary characters, all rules by which lines are kept, and all numbers of lines", "why_tests_cant": "Tests call ReadLine once. That nothing but the clipboard, the history and the unread keys passes from one call to the next, over any number of lines, is an induction over the calls.", "anchors": ["main.go:ReadLine", "main.go:Editor", "history.go", "simplehistory/main.go", "examples/example2.go"]}
{"id": "C80", "title": "The terminal shows the pages of the textbook one after the other", "statement": "With any binding of keys to the commands of the package except completion, a prompt of characters and colours, and ordinary characters, on a terminal that agrees with the editor about the widths of ordinary characters: whenever ReadLine waits for a key, the row of the terminal holds the prompt and the line that the textbook editor of C78 has after the keys read so far, as much of it as fits, with the terminal's cursor at the character the textbook's cursor is at and the textbook's prediction behind the end of the line. Every line the textbook passes through is shown in this way before the next key is read, and the call ends with the textbook's answer.", "quantifier": "for all sequences of keys and of window sizes of at least six columns more than the prompt, all such prompts, all texts, histories and clipboards over ordinary characters, and all terminals that agree about ordinary characters", "why_tests_cant": "Tests look at returned strings, not at a screen. The claim relates two independent machines, the textbook editor and the terminal, over every sequence of keys.", "anchors": ["main.go:ReadLine", "buffer.go", "repaints.go", "gommand.go", "history.go", "isearch.go"]}
{"id": "C81", "title": "How the runtime lays out the memory of the line does not influence what ReadLine does", "statement": "The line is a Go slice whose capacity is chosen by the runtime, and slices of it may reach up to that capacity, where deleted cells and cells that never held a character lie. Whatever capacities the runtime chooses, a call of ReadLine returns the same line, leaves the same state and writes the same to the terminal, or dies in the same way.", "quantifier": "for all growth policies of append, all key sequences, resizes, texts, histories and configurations with built-in and completion commands", "why_tests_cant": "A test runs with one runtime and one growth policy, on one machine; the capacity of a slice is not specified by the language.", "anchors": ["slice.go:sliceInsert", "slice.go:sliceDelete", "buffer.go:insertString", "buffer.go:Delete", "main.go:ReadLine", "gommand.go:cmdSwapChar"]}
{"id": "C82", "title": "The screen of a program that reads lines is a transcript of the lines entered", "statement": "While a program reads line after line, the row of the cursor shows the prompt and the line being edited; above it stand, in order and each behind its prompt, exactly the lines that were entered, none overwritten, lost or repeated, even after they have scrolled off the top; and above them what stood on the screen before the program. When the program ends with Ctrl-C or Ctrl-D the cursor is at the beginning of a fresh row below the transcript. The history is the transcript less the lines that are not kept.", "quantifier": "for all numbers of calls and of keys, all lines, cursor positions, predictions, searches, resizes up to the terminal's width, heights of the terminal and contents of the screen before", "why_tests_cant": "A test looks at the output of one call, byte by byte; which rows of a terminal survive depends on all the calls, the height of the terminal and where the cursor was.", "anchors": ["main.go:ReadLine", "repaints.go:RepaintAfterPrompt", "repaints.go:repaintWithoutUpdateSuffix", "gommand.go:cmdAcceptLine", "examples/example3.go:main", "isearch.go:cmdISearchBackward"]}
{"id": "C83", "title": "The screen of examples/example3.go is a dialogue: every line, what the program says about it, and the error at the end", "statement": "examples/example3.go does not fail, whatever is typed with its ten WordStar keys and the default keys. While it waits for a key the row of the cursor shows the prompt and the line being edited, and above it stand in order, for each line entered, the line behind its prompt, the row or rows with TEXT= and exactly the text of the line, and an empty row; above all that stands what was there before the program, even after it scrolled off the top. When it ends, ERR=^C stands under the line that was given up, and the cursor is at the beginning of an empty row. History and error are those of a program of the textbook with these keys.", "quantifier": "for all keys, numbers of lines, lines longer than the window or than the terminal is wide, resizes up to the terminal's width, heights of the terminal and contents of the screen before", "why_tests_cant": "A test compares the text returned; whether what the program prints overwrites the line, or is overwritten by the next prompt, depends on where each call leaves the cursor, on the widths of all characters and on the rows of the terminal.", "anchors": ["examples/example3.go:main", "main.go:ReadLine", "gommand.go:cmdAcceptLine", "gommand.go:cmdIntrrupt", "buffer.go:RepaintAfter", "history/history.go:Add", "keybind.go:BindKey"]}
{"id": "C84", "title": "The screen of examples/example160.go: the dialogue and, behind the line, what its own predictor foresees", "statement": "examples/example160.go, whose predictor leaves blanks at the ends of the line and of the history lines aside, does not fail whatever is typed with the default keys, and its history is that of a program of the textbook that foresees in this way. While it waits for a key the row of the cursor shows the line being edited and behind it, as far as there is room, the rest of the newest line entered before that begins alike; above it stand the lines entered, each with TEXT= and its text below. When it ends, ERR=^C or ERR=EOF stands under the row of the line that was given up.", "quantifier": "for all keys other than the ones named, numbers of lines, lengths of lines, resizes up to the terminal's width, heights of the terminal and contents of the screen before", "why_tests_cant": "What is foreseen depends on every line entered before, is painted by every command and has to be erased again from the row when the line is entered; a test sees the returned text of a few sessions.", "anchors": ["examples/example160.go:main", "examples/example160.go:predictByHistory", "main.go:ReadLine", "buffer.go:updateSuffix", "repaints.go:repaintWithoutUpdateSuffix", "gommand.go:cmdForwardChar", "gommand.go:cmdIntrrupt"]}
{"id": "C85", "title": "The shell of examples/example2.go: from the keys to the commands it runs and to the row of the line behind its coloured prompt", "statement": "The shell of examples/example2.go comes to an end whatever is typed (other than Tab, Ctrl-L, Ctrl-Q, Ctrl-V and Ctrl-T), and the commands it has run are, in this order, the words of the lines that were entered, as a textbook says which lines the keys make; lines without words run nothing and are not remembered. If its commands end the lines they write, then whenever a key is awaited the row of the cursor shows the coloured prompt as `$ `, the line being edited and behind it what is foreseen from the lines entered before; when a command is started the line stands in the row above the cursor; and in the end ERR=^C or ERR=EOF stands under the row of the line that was given up.", "quantifier": "for all such keys, numbers of lines, lengths of lines, systems of files and commands, resizes up to the terminal's width, heights of the terminal and contents of the screen before", "why_tests_cant": "The row of a line depends on where the command before it has left the cursor, on the columns of a prompt full of escape sequences and on all keys before; running the shell in a test would need a terminal and would show a few sessions.", "anchors": ["examples/example2.go:main", "main.go:ReadLine", "main.go:callPromptWriter", "repaints.go:repaintWithoutUpdateSuffix", "simplehistory/main.go:Add"]}
{"id": "C86", "title": "The programs that read one line (examples/example1.go, examples/example4.go, completion/example.go), and the key that edits the line in a text editor", "statement": "Each of the three programs comes to an end whatever is typed (other than Ctrl-L, Ctrl-Q, Ctrl-V, Ctrl-T and the key it binds itself), with the line the textbook says the keys make; whenever a key is awaited the row of the cursor shows the prompt and the line, and in the end the line stands behind the prompt and below it, folded at the terminal's width, what the program says about it. Escape in examples/example4.go makes the line the text the text editor has left in the file, without its last line end (one line feed and one carriage return), with the cursor at its end, and shows it; without a text editor it changes nothing.", "quantifier": "for all such keys, lengths of lines, resizes up to the terminal's width, heights of the terminal and contents of the screen before; for all text editors, states of the line in which Escape is pressed and texts of ordinary characters", "why_tests_cant": "The examples have no tests, and running them needs a terminal and a person; what Escape does depends on how far the line was scrolled and on the text that comes back.", "anchors": ["examples/example1.go:main", "examples/example4.go:main", "examples/example4.go:startEditor", "examples/example4.go:cmdStartEditor", "completion/example.go:mains", "main.go:ReadLine", "repaints.go:repaintWithoutUpdateSuffix"]}
{"id": "C87", "title": "The terminal shows every character of the line in the colour of the colouring", "statement": "A terminal with a pen (the colours and weight in which it writes, changed by the sequences ESC[...m) receives everything ReadLine writes. Whenever a key is awaited, every character of the line that is seen on the terminal was written with a pen last set to the colour the colouring answers for this character when it is told the present line, also for characters that were painted long ago, when the line was different. In particular VimBatch and the colourings of test/color-sgr and test/color-default-symbol show exactly the areas they promise. After ReadLine has returned the pen is as it was before.", "quantifier": "for all colourings that look neither at the cursor nor depend on the order in which commands paint, all keys, lines, widths, resizes up to the terminal's width, scroll positions, contents and pens of the screen before, and all ways a terminal reads the numbers of a colour sequence", "why_tests_cant": "The tests of the package compare bytes or the line; which colour a cell has depends on the whole history of partial repaints and on the terminal's pen at each moment.", "anchors": ["main.go:ReadLine", "repaints.go:refreshColor", "repaints.go:repaintWithoutUpdateSuffix", "buffer.go:insertString", "color.go:SGR4", "color.go:WriteTo", "coloring/vimbatch.go:Next", "internal/moji/codepoint.go:PrintTo", "test/color-sgr/main.go:main", "test/color-default-symbol/main.go:main"]}
{"id": "C88", "title": "When a key is awaited and after ReadLine the terminal writes in the default colour of the colouring", "statement": "A terminal with a pen (the colours and weight in which it writes) receives everything ReadLine writes. Whenever a key is awaited, and when ReadLine has returned, the pen is one the default colour of the colouring leads to and no escape sequence is unfinished, whatever the pen was before, whatever the line, the history and the clipboard contain, and even if the prompt or the colours of predictions leave the pen changed: everything that may colour is followed by a piece of the line and the default colour. In particular VimBatch leaves a plain pen and the editor without a colouring a bold one. In the shell of examples/example2.go the terminal writes plainly whenever a key is awaited and when the shell has ended, although the commands it runs may leave any colour.", "quantifier": "for all keys, key maps of built-in commands, texts, histories, clipboards, widths, resizes, prompts and other given texts without unfinished sequences, pens before, ways a terminal reads the numbers of a colour sequence, and all colourings whose colours are real", "why_tests_cant": "The pen depends on every byte written since the terminal was started; the tests look at no terminal, and a colour left behind shows only in the output of the program that called ReadLine.", "anchors": ["main.go:ReadLine", "repaints.go:repaintWithoutUpdateSuffix", "repaints.go:RepaintAll", "repaints.go:RepaintLastLine", "buffer.go:puts", "color.go:WriteTo", "coloring/vimbatch.go:Init", "completion/main.go:CmdCompletionOrList.Call", "examples/example2.go:main"]}
{"id": "C89", "title": "Commands and keys by name in programs that add their own commands", "statement": "After a program has created commands with NewGoCommand and bound commands to keys by code or by name, in any order, pressing a key runs what the last call concerning that key gave it, and a key no call concerns does what it did before. The command that has a name is the last one created under it, else the built-in one; GetFunc gives exactly that one, in any spelling, and its String() is the name asked for. GetFunc(c.String()) gives c. BindKeySymbol(km, key, name) gives the key the command with that name. LookupCommand(key).String() is the documented name of the command of the key.", "quantifier": "for all sequences of calls of NewGoCommand, BindKey, BindKeyFunc, GetFunc and BindKeySymbol, all names and spellings, all functions, all keys and states", "why_tests_cant": "The tables are variables of the program that every call may change; what a key does depends on the order of all calls, and no test creates a command or looks one up by name.", "anchors": ["gommand.go:NewGoCommand", "gommand.go:GoCommand.String", "gommand.go:GoCommand.Call", "gommand.go:SelfInserter.String", "keymap.go:BindKey", "keymap.go:Lookup", "keymap.go:AnonymousCommand", "nameutils/main.go", "keys/naming.go:NormalizeName", "completion/main.go:CmdCompletion.String", "main.go:LookupCommand"]}
{"id": "C90", "title": "Prompts of two rows, and the programs that test the widths of characters", "statement": "When the prompt has two rows, whenever a key is awaited the terminal shows the line that was edited so far behind the second row of the prompt, the first row of the prompt stands directly above it, and the rows above that are as before; also after the terminal was resized, although the prompt is then written into one row. In test/unicodetest and test/unicodetest10 the digit i therefore stands above the column i of the line. These programs print what the textbook says was entered, or the error, their status tells which, and the terminal writes plainly when they wait and when they end. When they have ended, the ruler, the line and what was printed stand one below the other, and what was above is still there. With the environment variable ZWJS, characters that are joined have the columns of the widest of them.", "quantifier": "for all prompts of two rows of ordinary characters and colours that fit into a row, all sequences of keys and resizes, all texts of ordinary characters, all predictions, all terminals that agree about ordinary characters", "why_tests_cant": "test/unicodetest is a program for looking at, not a test; where the ruler stands depends on every key and resize before, and on the whole output since the prompt.", "anchors": ["test/unicodetest/main.go", "test/unicodetest10/main.go", "main.go:cutEscapeSequenceAndOldLine", "repaints.go:RepaintLastLine", "main.go:callPromptWriter", "coloring/vimbatch.go"]}
{"id": "C91", "title": "Ctrl-L leaves nothing on the screen but the prompt and the line", "statement": "After a key that clears the screen (Ctrl-L), whenever a key is awaited, the prompt and the line stand at the top of the screen, in the first row or, if the prompt begins with a line feed, in the second, and every other row is empty; this stays so until a key redraws the line on a new row. A key that redraws the line on a new row (REPAINT_ON_NEWLINE) leaves everything that stood in the row of the line and above it, directly above the new prompt. No other key and no resize touches a row other than that of the line. When the call ends with a key, the cursor is at the start of the row below that of the line, which keeps the prompt and the line if one was entered; the rows above stay, and if the screen was cleared every other row is still empty.", "quantifier": "for all sequences of keys and resizes, all bindings of keys to the commands of the package but completion, all prompts of one row, all texts of ordinary characters, all contents of the screen before, all terminals that agree about ordinary characters", "why_tests_cant": "Where the cursor is and what is on the screen when Ctrl-L is pressed depends on everything that was written before, and what follows Ctrl-L may be any sequence of keys and resizes.", "anchors": ["gommand.go:cmdClearScreen", "gommand.go:cmdRepaintOnNewline", "repaints.go:RepaintAll", "repaints.go:RepaintLastLine", "main.go:callPromptWriter", "main.go:ReadLine"]}
