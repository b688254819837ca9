# Formal model of nyaosorg/go-readline-ny in Lean 4

The Go code in /repo is read as text and modelled function by function in Lean 4.

| directory | contents |
|-----------|----------|
| `lean/Verif/Model` | the model; every definition cites the Go lines it models |
| `lean/Verif/Spec` | specification vocabulary, independent of the functions under proof |
| `lean/Verif/Proof` | lemmas |
| `lean/Verif/Props` | one file per property `Cnn`: theorems, counterexamples, concrete cases |
| `properties.jsonl` | the properties in English |
| `MANIFEST.json` | status of each property and the names of its theorems |
| `seeded/LOG.jsonl` | wrong programs the theorems were tested against |

## How to read a property file

A property whose English statement holds of the code is proved as `Cnn` or `Cnn_<part>`.
Where it does not hold, the full statement is refuted by a concrete run (`Cnn_refuted…`,
`Cnn_counterexample…`) and the strongest version found is proved as `Cnn…_partial`, with the missing
part named in the comment and in MANIFEST.json.  Every theorem with hypotheses is followed by an
`example` in which they hold for a non-trivial input.

## What is modelled

| Go | Lean | not modelled |
|----|------|--------------|
| internal/moji/{moji,codepoint,width}.go | `Model/Moji.lean`, cache in `Model/Misc.lean` | the width tables (parameter `Cfg.width`), Unicode tables of variation selectors (`Cfg.varSel`) |
| internal/moji/{termcheck,orgxwidth}.go | `Model/Termcheck.lean` | `unicode.IsPrint` above U+00FF and `width.LookupRune` are parameters |
| internal/moji/runewidth.go | a parameter of `startCfg` | the third-party table |
| slice.go | `Model/Slice.lean` (`copy` as memmove); `Model/Memory.lean` repeats every command with the array behind the line, its capacity and an arbitrary growth policy of `append` | aliases of the array kept by commands of the program |
| color.go | `Model/Color.lean` (`BitVec 64`) | |
| buffer.go, repaints.go | `Model/Buffer.lean` | the `context` |
| gommand.go, history.go, isearch.go | `Model/Commands.lean` | `context`; what isearch.go:56 prints on stderr when a search cannot read a key |
| examples/example160.go:11-40 | `Model/Trim.lean` | Go's separate loops for ASCII blanks in `strings.TrimSpace` |
| examples/example3.go:13-32 (the bindings) | `Model/Wordstar.lean` | |
| examples/example2.go:25-66 | `Model/Tiny.lean` | what the program prints itself; files that change while a line is entered; the separate loop of `strings.Fields` for ASCII |
| examples/example3.go:34-43, example160.go:32-40, example2.go:45-66 (the loops) | `Model/Shell.lean` | what the programs print or execute themselves |
| examples/example3.go:34-43, example160.go:25-40, example2.go:43-66 with the calls of `fmt.Printf` and `fmt.Println` | `Model/Reply.lean` | standard output and the editor's writer are one stream to the terminal; errors of the terminal have any text |
| examples/example1.go:12-20, examples/example4.go:19-83, completion/example.go:14-36, test/color-sgr/main.go:45-55, test/color-default-symbol/main.go:45-55 | `Model/Single.lean` | the files and processes of the text editor: it is any function from the text in the file to the text in the file afterwards, or to none; standard error is the same terminal |
| test/unicodetest/main.go:15-54, test/unicodetest10/main.go:16-47 | `Model/Ruler.lean` | the copy of the output in `output.log`; that it cannot be made is an argument |
| keymap.go, keys/*.go, nameutils/main.go | `Model/KeyMap.lean`; with `String()` of commands, `NewGoCommand` and sequences of such calls `Model/Registry.lean` | names that are not valid UTF-8; `nil` in place of a key map |
| main.go | `Model/ReadLine.lean` (one thread), `Model/Threads.lean`, `Model/Statements.lean` (two threads), `Model/Output.lean` (`Init`, the buffer of the output), `Model/Broken.lean` (output that fails), `Model/Estate.lean` (mutex and terminal over several calls), `Model/Late.lean` (the goroutines of several calls) | |
| getkey.go, tty8.go, auto/main.go, `GetKey` of tty10/main.go | `Model/GetKey.lean`, `Model/Device.lean` (consecutive calls of `GetKey`), `Model/Term.lean` (the mode of the terminal, failures to set raw mode, the goroutines of `Open`) | failures to go back to the old mode |
| tty10/main.go `Open`, `Close`; tty8.go `Open` | `Model/Threads.lean` | Windows console modes, the period of the timer |
| completion/main.go, completion/file.go | `Model/Completion.lean`, `Model/FileTab.lean` | `box.Print` (a parameter), Windows separators, symbolic-link details of `os.DirEntry` |
| coloring/vimbatch.go, simplehistory/main.go | `Model/Misc.lean` | |

Commands of the calling program: `Model/Own.lean` (programs over the exported calls; examples/example4.go as
an instance).

`Props/Tests.lean` evaluates the inputs of the tests of the repository in the model and compares with the
values the tests expect (all agree).

Not modelled at all: the demonstration programs of the other packages, test/ (but for test/color-sgr,
test/color-default-symbol, test/unicodetest and test/unicodetest10, `Model/Misc.lean`, `Model/Single.lean` and `Model/Ruler.lean`), the test files, third-party packages.

## Modelling decisions

* **Strings** are Go strings: lists of bytes.  `unicode/utf8` is modelled concretely, including the
  `(RuneError,1)` answers for malformed input.
* **Slices** are lists.  Every index or slice expression that can panic is checked; a failed check is
  an explicit outcome `Except.error` carrying the kind of panic and the state at that moment.
  Nothing is totalised silently.  An upper bound beyond the length but perhaps within the capacity is
  the separate outcome `stale`: Go would panic or go on with old cells.  `Model/Memory.lean` goes on there: it
  keeps the cells behind the line, and C81 proves that the two models agree except after `stale`, and what
  happens after it.
* **Loops** are structural recursion, or recursion on fuel with a theorem that the fuel suffices
  (outcome `diverge` is proved unreachable), or with a theorem that no fuel does (`File.List`).
* **Pointers**: no two live cells share a `*Tab`, so its position is part of the cell.  `int16`
  positions wrap.  `int` is unbounded; `ColorSequence` is `BitVec 64`.
* **Output** is a list of tokens (`Tok`), each with its exact bytes.
* **Input** of `readLine` is a list of events: key, Tty error, resize.  Resizes are handled between
  commands; a command that reads keys itself passes over them.  That every schedule of the two
  goroutines amounts to such a list (once the start of `ReadLine` is over) is C30.
* **Parameters**, universally quantified: terminal flags, rune widths, `GetZWJSWidth`, history,
  clipboard (may fail), prompt (may differ from call to call), `Coloring`, `Predictor`, key maps,
  `LineFeedWriter`, `strings.ToUpper`, `unicode.ToUpper`, simple case folding, directory tree.
* **Custom commands** (`Cmd.custom f`) may do anything; session theorems exclude them in their
  hypotheses (`BuiltinKeys`).  The two completion commands (`Cmd.completion P`, with any completer,
  postfix and `box.Print`) count as built-in: sessions in which they are bound are covered.
* **Threads**: steps of the two goroutines interleave arbitrarily and are sequentially consistent.
  How the code of a command, of the callback and of the start is cut into steps is a parameter
  (`Code`, assumed `Faithful`); cutting at every statement of main.go is shown to be an instance.  A
  failing `Tty.Size` and the deferred writes after the end are not part of the thread model.

## Specifications

* `Spec/Text`: UTF-8 by Lean's own encoder.  `Spec/Segment`, `Spec/Joiner`: what text comes back from
  cutting into units, and which code points attach.
* `Spec/Line`, `Spec/Split`: the line as units, and as the two halves around the cursor.
* `Spec/Carry`: a command is carried out: called on a state, or by the session because of a key, after resizes (`Performs`); the claims about single commands and pairs of commands are stated for it.
* `Spec/Editor`: the editor without a screen (`Ed`): texts, cursor, undo log, history, clipboard,
  search, but no widths, scrolling, colours, output.  The model refines it (`Proof/Refine*.lean`,
  `Proof/Session.lean`), so facts about it carry over to all sessions that do not panic.
* `Spec/Calm`: the two situations that break the undo log (Ctrl-T at the end of the line, a joiner
  attached to a unit that was not there); session theorems exclude these and nothing else.
* `Spec/Source`, `Spec/Plain`: the texts a session starts from, and ordinary sessions: conditions on
  texts, keys and terminal alone under which the conditions on states (`Calm`, `Steady`, room for the
  line) hold throughout.
* `Spec/Undo`: the list of lines Undo has to bring back.  `Spec/Recall`: the same along a session, also with an exchange at the end of the line.  `Spec/Word`, `Spec/Browse`, `Spec/Search`,
  `Spec/Quote`, `Spec/Prefix`, `Spec/LastWord`, `Spec/Prompt`, `Spec/Keys`, `Spec/Visible`: declarative
  versions of words, browsing, searching, quoting, common prefixes, the words before the cursor, prompts,
  rune streams and cursor visibility.
* `Spec/Completion`: what completion has to do, as a function of the words before the cursor.
* `Spec/Own`: the rules for own commands (C59).
* `Spec/Termcheck`: which terminals the environment names (C60).
* `Spec/Shell`: events that amount to a line, given the lines entered before (C62).
* `Spec/Names`: how a character may be shown (C63).
* `Spec/TakeBack`: which command is one change and where the cursor is after Undo (C64).
* `Spec/Columns`: the column behind units written one after the other (C06, C25).
* `Spec/Clipboard`: the texts cut in a session and in a sequence of calls (C65).
* `Spec/Methods`: contracts of the exported methods of Buffer (C66).
* `Spec/Scroll`: how the window over a long line may move (C67).
* `Spec/Looks`: states, editors and outcomes that differ at most in colours and output (`Twin`, `Dressed`, `EquallyWide`, `EndAlike`).
* `Spec/Ample`: lines that fit however their tabs fall, and rows that show a whole line (C26, C27, C51, C67).
* `Spec/Strings`: occurrence, first position, deletion of characters and equality up to case of texts, for completion
  (C33, C35), without the model's string functions.
* `Spec/Reads`: how bytes are read as characters, malformed ones included, by Lean's own encoder (C70).
* `Spec/Trim`: a text without the blanks at its ends, and the newest line that goes on as another (C71).
* `Spec/Inert`: bytes that cannot control a terminal, and output that does not depend on the texts (C61).
* `Spec/Vt`, `Spec/Seen`, `Spec/SeenTabs`: a screen that receives bytes, and what it should show of a line, without
  and with tabs (C58).
* `Spec/Terminal`: a terminal that decodes bytes and moves its cursor (C28).  `Spec/Row`,
  `Spec/Shown`: one row of a terminal fed with tokens, and what it should show (C26, C27).
* `Spec/Alone`: calls one after the other, each by itself (C75).
* `Spec/Tab`: the candidates for a word in terms of directory listings and what the key does with them (C76).
* `Spec/Fields`: the words of a text (C77).
* `Spec/Textbook`: a line editor on lists of characters (C78).
* `Spec/Notebook`: a program that reads lines with the editor of `Spec/Textbook` (C79).
* `Spec/PageOnScreen`: what a page of the textbook looks like on a terminal (C80).
* `Spec/Transcript`: the rows of the terminal counted from the cursor upwards, the pages of the textbook's
  program at which lines were entered, and the states of a program that reads lines.
* `Spec/Reply`: the rows of text printed by the program, folded at the width of the terminal, and the
  dialogue of lines and answers.
* `Spec/Burst`: the units and colours in every stretch of output without a wait (C74).
* `Spec/Wordstar`: what each of the keys of example3 does to the line (C73).
* `Spec/Tint`: a row with the colour of every column, and the colour a unit has in the present line (C72).
* `Spec/Ink`: what a `Coloring` is told, and the colour in force when a unit is printed (C46).
* `Spec/KeyCodes`: what the keys of an xterm send (C47, C48).
* `Spec/Serial`: whole commands and whole callbacks one after the other (C30).

## Proof architecture

1. `Proof/{Utf8,Segment,Units}`: text and units.
2. `Proof/{Display,Refine,RefineCall,Session}`: each command of the model, unless it panics, does what
   the command of `Spec/Editor` does; so does a session.
3. `Proof/{Safe,SafeCall,Tabs,Invariant}`: weakest preconditions.  A built-in command started in a
   state satisfying the invariant either ends in such a state or panics for a reason that is named
   (too narrow a terminal, a tab beyond column 32767, the candidates of a completion command).
4. `Proof/{UndoLog,UndoCall}`: every entry of the undo log describes the line before an edit in terms
   of the line after it; all commands keep this in calm sessions.
   `Proof/Jam`: the positions stay inside the line whatever the log says; an entry that does not fit jams the log, and the part above it behaves as if it were not there.
   `Proof/Burst`, `Proof/BurstCall`: how much of the line each command prints between two waits.
5. `Proof/{Trace,Waits,Input,Frame,Pending,Observe,Split,Carry,Word,Strings,Reads,Trim,LastWord,Completion}`: what commands write and read,
   that they end, what they leave alone.
6. `Proof/{Draw,Show,Aligned,Vis*}`: the row of the terminal through a session.
   `Proof/{Ample,AmpleCall,AmpleSession,AmpleCheck}`: the same for lines with tabs that fit.
7. `Proof/{Ink,InkCall}`: the colours of everything that is printed.  `Proof/{Tint,TintCall}`: the colours
   that are on the row.  `Proof/Printed`: whatever is
   said of each kind of output holds for all output of a session.
8. `Proof/{Source,Room,Plain,Mild}`: where the characters of all texts come from and where the line
   begins; ordinary sessions are calm and steady and do not panic.
9. `Proof/{Shift,Local,Out,Threads,Merge,Schedule,Statements}`: output already written and input not
   yet read make no difference; every schedule is a sequence of whole pieces; such a sequence is a
   session; schedules exist.

## Model part and proof method per property

| id | model | proof plan |
|----|-------|-----------|
| C01 | whole editor, `Except Panic` | invariant over all reachable states; counterexamples for the inputs that do panic; ordinary sessions: no panic is one of a tab or of too little room |
| C02 | editor | same invariant |
| C03 | `readLine` | case analysis of the loop |
| C04 | `readLine`, `selfInsert` | induction over the keys |
| C05 | `stringToMoji`, `writeTo` | induction over decoded runes; counterexamples (U+200C, trailing U+200D, malformed) |
| C06 | both loops | simultaneous induction; counterexample with tab after joined sequence |
| C07 | `copy`-based slice functions | list algebra |
| C08 | undo stack | ghost list of earlier texts, invariant by induction over commands; frame lemma for the entries above a jam |
| C09 | commands | per-command refinement to (text,cursor) |
| C10 | kill/yank + clipboard | composition of refinement lemmas and C05 |
| C11 | commands | per-command refinement |
| C12 | commands | per-command refinement |
| C13 | swap, undo | refinement + counterexample at end of line |
| C14 | word motions | loop invariants vs. declarative word boundary |
| C15 | `currentWordTop` | automaton vs. spec |
| C16 | history commands | invariant on pointer |
| C17 | modified-history map | refinement to map; counterexamples |
| C18 | isearch | loop invariants, fuel |
| C19 | `predictByHistory` | list search |
| C20 | suffix | invariant + counterexample (stale suffix) |
| C21 | key map | function update algebra |
| C22 | `getRawKey`/`getKeys`/queue | induction over the stream |
| C23 | tty10 `getKey` | induction over chunks |
| C24 | colour words | bit-vector lemmas |
| C25 | prompt scanner (`Props/C25Bytes`: any bytes) | automaton vs. spec |
| C26 | token-level terminal | terminal semantics, layout lemma |
| C27 | view arithmetic | invariant + counterexamples |
| C28 | `printTo` on a byte/rune terminal | case analysis, hex-digit lemma |
| C29 | `refreshColor` | induction over cells |
| C30 | two-thread transition system with mutex | invariant, simulation by sequential runs |
| C31 | tty10 goroutine transition system | invariant |
| C32 | cache state machine | refinement to override map |
| C33 | completion | refinement |
| C34 | `commonPrefix` | induction; counterexample |
| C35 | `File.List` with abstract directory oracle | divergence proof + termination under a side condition |
| C36 | name tables | finite tables, lookups |
| C37 | VimBatch automaton | induction |
| C38 | editor | two-run simulation; colours and output: a simulation relation (Proof/Twin, Proof/TwinCall) kept by every function of the model |
| C39 | output tokens | invariant |
| C40 | commands | refinement |
| C41 | string functions | induction |
| C42 | `readLine` start | definitional unfolding to spec state |
| C43 | selfInsert, pending | induction, counterexamples |
| C44 | readLine fuel | measure |
| C45 | simplehistory | induction |
| C46 | `refreshColor`, `puts`, output tokens | what is told and printed, by induction; trace of a session |
| C47 | `nameToCode`, `bindKeyFunc`, `lookupCommand` | comparison with `Spec/KeyCodes` over the whole table; then any spelling, key map, state |
| C48 | `globalTable`, `nameToFunc` | documented pairs found in the tables; then any state |
| C49 | `Device`, `readLine`, `Tty10`, `Tty8` | C04 for one line; induction over the calls; each Tty delivers characters one by one; a failing terminal (`Props/C49Error`) by induction over the keys typed |
| C50 | `readLine`, all commands | each command does the same with other events behind those it reads (`Proof/Ahead`) |
| C51 | `finish`, `readLine` | nothing else reads `lineFeed`; `repaintNoSuffix_paints` at the last state |
| C52 | `Term`, `Stdin` | induction over the loops; simulation by the model without modes |
| C53 | `watch8`, `watch10` | induction over the signals |
| C54 | `isearchLoop` | loop invariant relating the row (`Spec/Row`) to the search of C18 |
| C55 | `Writer`, `G`, `readLineFull` | induction over the output; a schedule for every reachable state |
| C56 | `Fields.init` | cases |
| C57 | all commands | invariant `Ed.From` on the abstract editor: line, undo log, clipboard, prediction and edited history are over P |
| C58 | `Tok.bytes`, the output of all commands | the tokens a session emits (`Proof/Clean`, and after the last prompt `Proof/Behind`) take a row (`Spec/Row`) and a byte-level screen (`Spec/Vt`) through the same states (`Proof/Vt`); then C26 and C27; with tabs `Proof/Printed` for the units printed and `Proof/Goto` for the moves |
| C59 | `Api`, `Own` | an allowed call keeps the undo log (C08) and panics only as expected (`Proof/Own`); induction over the program, then over the session |
| C60 | `startCfg`, `orgRuneWidth` | the flags are off on an unnamed terminal, so only the first constructor of `Built` is left and nothing becomes pending; then C02, C05, C10, C12, C18, C43, C58 |
| C61 | everything that writes | a generic invariant about all output (`Proof/Printed`): a predicate that allows each kind of output holds for all of it; units are harmless by cases; a terminal fed with harmless bytes, by induction |
| C62 | `readLines`, `program` | each way of entering a line is followed key by key through the loop of a call (C04, C16, C18, C20), then induction over the lines; that calls return by C01 with the texts of all calls as an invariant |
| C63 | `rune2moji`, `Moji.print`, `hexUpper` | by cases over the kinds of units; numbers by induction over their digits; sessions by `Proof/Printed` |
| C64 | `undo`, `joinUndoes`, the editing commands | each command is one replacement of a range (`Ed.Edit`) together with its log entry; Undo inverts a replacement |
| C65 | the kill commands, `clip`, `readLines` | a session with the list of texts cut (`Spec.Cuts`); the clipboard is a function of this list |
| C66 | the methods of `Api` | one contract per method (`Spec.Does`), lifted to all runs of own commands (`Spec.Tells`) |
| C67 | `resetViewStart`, all commands | least scroll offset as a loop invariant; per command: stays, left to the cursor, or least; session induction |
| C68 | `Model/Broken` | promptErr is looked at only at the start; the rest of a session does not look at the output (`OutBlind`); a failed writer stays as it is |
| C69 | `Model/Estate` | what each exit does to the mutex and to the terminals, induction over events and over calls; the loop with the mutex is the loop without it while it is unlocked |
| C70 | `decodeRune`, `stringToMoji`, `readLine` | what the decoder returns is the encoding found there (case analysis over the lead byte); a function of the runes only; no function but `startSt` looks at the default text |
| C71 | `trimSpace`, `predictTrimmed`, `example160`, `readLines160` | a decoded blank is the encoding of a white-space character standing there; stripping is unique since no character reaches into the whole characters behind a text; C20 for the session |
| C72 | the same as C26 and C46 | the colour of a unit depends only on the line up to it; what a command does not print again is that part of the line that is the same up to there, or has the same colours because two characters were exchanged |
| C73 | states of sessions as in C02, programs as in C62 | the bindings are computed once for the ten keys and once for all others; each key is then the command of C09, C11, C12, C14 or C16 |
| C74 | states of sessions with built-in commands | the output since the last wait is weighed (`Proof/BurstCall`); invariant: every cell at least one column wide, the cursor at most one row behind the first visible unit |
| C75 | `Model/Late`: any number of calls, the goroutines of all of them | simulation of each call by the call alone, up to the output (`Proof/Late`); the rest from the theorems about one call; witnesses for the default Tty |
| C76 | `Model/FileTab`: the completion commands with `completion.File` | the listing against `Spec.candidates`, then C33; session by comparison with a completer that always answers; witnesses for the panic and the hang |
| C77 | `Model/Tiny`: examples/example2.go, `strings.Fields` | induction over the rounds of the loop; C70 for the texts, C62 for the ways to enter a line, C01 for going on; witness for quoted names |
| C78 | `Spec/Textbook`: an editor on characters, independent of the model | simulation: every command of `Ed.call` against a turn of the textbook, then induction over reachable states; panics with C01; witness for old predictions |
| C79 | `Spec/Notebook`: the program with the textbook editor | induction over the lines; the textbook's line of C78, what a call leaves, the keys left |
| C80 | `Spec/PageOnScreen`: a page of the textbook on a terminal; `Spec/Seen`, `Spec/Vt` | the display of C58 and the simulation of C78; every page is reached by induction over the turns |
| C81 | two growth policies of `append`, one of them arbitrary | simulation of the lists by the memory; lockstep of two memories that agree on every cell that has been a cell of the line |
| C82 | the program of the textbook and a terminal that keeps what scrolls away | everything but the first byte of a call stays in its row (tokens of the output); induction over the calls |
| C83 | examples/example3.go with what it prints, the textbook's program and a terminal | a call leaves the cursor at the end of its line (C82), what is printed folds at the terminal's width (induction over runes); induction over the calls |
| C84 | examples/example160.go with what it prints and predicts, the textbook's program and a terminal | the predictor on bytes is one on characters (`strip`); the theorems of C83 for any predictor that stays within the characters of the texts |
| C85 | examples/example2.go with what it prints, its coloured prompt, any system of commands, the textbook's program and a terminal | induction over the walk from call to call (`Underway`) with the conditions of a call carried along (`Aboard`); without Tab the editor is one without completion; a prompt is a row of coloured letters (`Poster`), whose columns and cells are those of its letters |
| C86 | examples/example1.go, examples/example4.go, completion/example.go with what they print, a text editor as any function of texts, and a terminal | the theorems of C80 and C82 for a desk without history and predictions; keys that are bound but not pressed do not matter; the rows of several printed lines (`FoldedAll`) by induction over the lines; Escape by running the command in any state |
| C87 | a terminal with a pen (`Spec/Glass`): any state, changed by the numbers of a colour sequence in any way; what each cell was written with | the pen follows the terminal of C58 (`grun_vt`); `Glazed`: the cells the row of C72 says were written with a colour have a pen that was given it, kept by every piece of output (`tinge`); C72 says that this colour is the one for the present line |
| C88 | the terminal of C87; kinds of output (`Spec/Pace`): pieces of the line with the default colour behind them, predictions, given text, control sequences | every command writes a sequence of which everything that may colour is followed by a piece of the line (`Paced`, by cases over the commands, `Proof/PaceCall`); what each kind does to the pen and to unfinished sequences, by induction over the kinds; for the example shell by induction over its calls (`Underway`), each of which can be cut off behind a whole character; where the search for file names returns, the editor is one with a completer that always answers (`readLine_answers`) |
| C89 | the last call that matters (`Spec/Config`): `Owns`, `Gives`, `Holds` say by splitting the sequence of calls which command has a name and which command a key has | each of the three unfolds at the end of a sequence of calls as the model does; induction on the sequence from its end |
| C90 | `Spec/Ledge`: the page behind the second row of the prompt, the first row above it, the rest as before | an editor whose prompt has both parts in one row writes the same bytes when the prompt is written again; so what is known about prompts of one row (`Proof/Rows`) is used for everything behind the first prompt |
| C91 | `Spec/Wiped`: when the screen counts as cleared, and a screen with nothing but the row of the cursor | the output is cut at the last key that cleared the screen: what precedes it leaves the terminal ready for a sequence, the sequence empties it, and what follows stays in the row of the prompt (`Proof/Rows`); the other rows key by key, with the cursor on the screen as an invariant; the end of the call (`Proof/WipedEnd`, `Props/C91End`) is what the last key writes in the row, then the line feed |

## Trusted base

* Lean 4.33.0's kernel (every module is also replayed by the checker), and the axioms in the table
  below, all of which are Lean's own: `propext`, `Classical.choice`, `Quot.sound`.  There are no other
  axioms, no `sorry`, no `native_decide`, no `bv_decide`.  Mathlib is not imported.
* The reading of the Go source, as cited at each definition, and of the Go library functions listed
  above as modelled or as parameters.
* The correspondence of the English properties with the theorems, for which the specifications are
  kept small; the seeded bugs in `seeded/LOG.jsonl` test it.

### Axioms of the theorems named in MANIFEST.json

no axioms:
`fits_plain`, `C21_precedence`, `C22_lone_surrogate`, `C22_error_loses_burst`, `C49_pilot`,
`C53_calls`, `C53_refuted`, `C89_lookup`.

`propext`:
`C01_tab`, `C23_counterexample`, `C25_refuted`, `C25_refuted_st`, `C32`, `C47_names`,
`C48_refuted`, `C49_tty10_error`, `C52_getKey`, `C52_tty8`, `C52_tty10`, `C52_calls8`,
`C52_calls10`, `C52_same10`, `C53_changes`, `C53_tty10`, `C56_keeps`, `C56_fills`, `C56_again`,
`C56_refuted`, `C60_flags`, `C72_quoting`, `C86_trim`.

`propext`, `Quot.sound`:
`C01_refuted_swap`, `C01_refuted_orphan`, `C01_narrow`, `C01_wide`, `C01_negative_cursor`,
`C02_refuted`, `C03_open`, `C03_size`, `C04_refuted_pending`, `C04_refuted_double`,
`C04_refuted_selector`, `C04_alt`, `C05_counterexample_malformed`, `C06_count`, `C06_width`,
`C06_width_partial`, `C06_width_plain`, `C06_counterexample`, `C07_insert`,
`C07_insert_out_of_range`, `C07_delete_noop`, `C08_refuted_swap`, `C08_refuted_orphan`,
`C09_resize`, `C10_refuted_orphan`, `C10_newline`, `C12_refuted`, `C13_refuted`,
`C14_refuted_tab`, `C15_refuted_tab`, `C15_refuted_joined`, `C17_refuted_restored`,
`C17_refuted_cycling`, `C18_refuted_undo`, `C19`, `C20_history`, `C20_refuted`, `C21_bindings`,
`C21_dispatch`, `C21_step`, `C22_getRawKey`, `C22_getKeys_total`, `C22_getKeys`, `C22_plain_key`,
`C23_bytes`, `C23_nonempty`, `C24_empty`, `C24_predefined`, `C24_seventh`, `C26_refuted_swap`,
`C26_refuted_swap_tab`, `C26_refuted_error`, `C27_refuted_prompt`, `C27_refuted_forward`,
`C27_refuted_swap`, `C27_refuted_tab`, `C28_refuted`, `C28_refuted_width`, `C28_refuted_joined`,
`C28_refuted_joiners`, `C28_refuted_marked`, `C29_partial`, `C29_repaint_partial`,
`C29_refuted_far`, `C29_refuted_joined`, `C30_exclusive`, `C30_partial`, `C30_resize`,
`C30_session_partial`, `C30_refuted_lost`, `C30_refuted_race`, `C30_refuted_deadlock`,
`stmts_faithful`, `C31_told`, `C31_refuted_twice`, `C33_blanks`, `repaintAll_out`,
`C34_refuted_case`, `C34_refuted_cut`, `C34_refuted_utf8`, `C35_empty`, `C38_coloring`,
`C38_looks`, `C38_refuted_width`, `C38_refuted_resize`, `C38_refuted_prompt`, `C40_refuted_alt`,
`C42_start`, `C43_refuted_end`, `C43_refuted_double`, `C43_refuted_selector`,
`C43_refuted_first`, `C44_refuted`, `C46_vimBatch`, `C46_monoChrome`, `C46_refuted`,
`C48_insert`, `C49_refuted`, `C50_unique`, `C51_linefeed`, `C51_refuted`, `C55_fails`,
`C56_out_partial`, `C57_refuted_whole`, `C59_refuted_scrolled`, `C59_refuted_undo`,
`C62_refuted`, `C63_refuted`, `C63_refuted_tab`, `C64_refuted_waiting`, `C64_refuted_attach`,
`C64_refuted_together`, `C64_refuted_history`, `C65_refuted_empty`, `C65_refuted_whole`,
`C66_refuted_runes`, `C67_refuted_fits`, `C67_refuted_wide`, `C67_refuted_rubout`, `C68_mute`,
`C68_exact`, `C68_refuted_narrow`, `C68_refuted_told`, `C69_files`, `C69_mutex`, `C69_partial`,
`C69_hangs`, `C69_refuted_mutex`, `C69_refuted_files`, `C71_refuted`, `C72_vimBatch`,
`C72_monoChrome`, `C72_refuted_cursor`, `C72_refuted_swap`, `C73_others`, `C73_refuted`,
`C74_units`, `C74_needs_width`, `C75_tty10`, `C75_statements`, `C75_refuted_written`,
`C75_refuted_crash`, `C76_returns`, `C76_refuted_empty`, `C76_refuted_hang`, `C77_unique`,
`C77_refuted_quotes`, `C81_refuted`, `C83_refuted_control`, `C84_refuted`, `C85_refuted`,
`C86_noEditor`, `C86_fails`, `C87_pens`, `C88_refuted`, `C89_documented`, `C90_log`,
`C90_refuted_narrow`.

`propext`, `Classical.choice`, `Quot.sound`:
`C01_partial`, `C01_plain_partial`, `calm_plain`, `C01_ordinary_partial`, `C01_texts_partial`,
`C01_bound_partial`, `C01_any_partial`, `C01_no_undo_partial`, `C01_tidy_partial`,
`C01_texts_no_undo_partial`, `C81_crash`, `C02_partial`, `C02_command`, `C02_resize`,
`C81_behind`, `C03`, `C03_ends`, `C03_goes_on`, `C04_partial`, `C04_plain_partial`, `C05_exact`,
`C05_iff`, `C05_partial`, `C05_counterexample_zwnj`, `C05_counterexample_trailing`,
`C07_insert_text`, `C07_delete`, `C08_partial`, `C08_plain_partial`, `C08_tidy_partial`, `C09`,
`C09_key`, `C09_word_motion`, `C09_word_key`, `C10_exact`, `C10_iff`, `C10_partial`, `C11`,
`C11_clip`, `C12_partial`, `C12_waiting_partial`, `C12_attach`, `C12_iff`, `C13`,
`C13_undo_partial`, `C13_end`, `C14_backward`, `C14_forward`, `C14_backward_partial`,
`C14_forward_partial`, `C15_currentWord`, `C15_rubout`, `C15_currentWord_partial`,
`C15_rubout_partial`, `C16`, `C16_text`, `C16_range`, `C16_only`, `C17_partial`, `C17_exact`,
`stores_exists`, `C18_enter`, `C18_cancel`, `C18_eof`, `C18_newest`, `C18_found`,
`C18_undo_partial`, `C20_leak`, `C20_accept`, `C20_fresh_partial`, `C20_off`, `C20_asked`,
`C20_stale`, `C22_tty8`, `C22_text`, `C22_escape_burst`, `C23_chunk`, `C24_add`, `C24_sgr`,
`C24_chain`, `C24_chain_write`, `C25_partial`, `C25_column`, `C25_column_partial`, `C25_bytes`,
`C25_every`, `C25_every_column`, `C26_repaint_partial`, `C26_partial`, `C26_ordinary_partial`,
`C26_tabs_partial`, `C27_repaint_partial`, `C27_step_partial`, `C27_partial`,
`C27_ordinary_partial`, `C27_tabs_partial`, `C28_rune`, `C28_partial`, `C28_string_partial`,
`C28_refuted_region`, `C30_result_partial`, `C30_same_partial`, `C30_live_partial`,
`C30_refuted_crash`, `C30_refuted_swap`, `C31_close_partial`, `C31_refuted`, `C33`, `C33_words`,
`C34_partial`, `C35_partial`, `C35_stuck`, `C35_refuted`, `C36_bindKeyFunc`,
`C36_bindKeyFunc_all`, `C36_getFunc`, `C36_getFunc_all`, `C36_named`,
`C36_bindKeySymbol_refuted`, `C37`, `C37_quoting`, `C38_partial`, `C38_words_partial`, `C39`,
`C39_open`, `C39_running`, `C40_partial`, `C40_control`, `C41_quoted`, `C41_plain`,
`C41_oneLine`, `C42_same_partial`, `C43_partial`, `C43_key_partial`, `C43_units_partial`,
`C43_text_partial`, `C44_halts`, `C44_order`, `C44_pilot_partial`, `C44_calm_partial`,
`C44_no_undo_partial`, `C45`, `C45_stable`, `C46_puts_partial`, `C46_repaint_partial`,
`C46_session_partial`, `C47_partial`, `C47_refuted`, `C47_refuted_F13`, `C48_partial`,
`C49_call`, `C49_lines`, `C49_call_partial`, `C49_returns_partial`, `C49_tty10`, `C49_tty8`,
`C49_error`, `C50`, `C50_reads`, `C51_partial`, `C51_ordinary_partial`, `C51_tabs_partial`,
`C51_eof_partial`, `C51_interrupt_partial`, `C52_same8`, `C53_known_partial`, `C53_settles`,
`C54`, `C55_order`, `C55_return`, `C55_key`, `C55_stays_partial`, `C55_refuted`, `C57_over`,
`C57_states`, `C57_result`, `C58_partial`, `C58_prompt_partial`, `C58_sign_partial`,
`C58_texts_partial`, `C58_tabs_partial`, `Example.keys_display`, `C59_inside_partial`,
`C59_partial`, `C59_plain_partial`, `C59_undo_partial`, `C59_replace`,
`Example.lawfulEditor_lawful`, `C60_variables`, `C60_units`, `C60_line`, `C60_cursor`,
`C60_kill_yank`, `C60_backspace`, `C60_search_undo`, `C60_typed`, `C60_columns`, `C60_display`,
`Example.keys_inCode`, `C61_unnamed`, `C61_texts_partial`, `C61_apart_partial`, `C61_terminal`,
`C61_refuted`, `Example.anything_inCode`, `C62_line_partial`, `C62_partial`, `C62_ends`,
`C62_goes_on_partial`, `C62_returns_partial`, `C62_texts_partial`, `C62_screen`,
`Example.shell_script`, `C63`, `C63_unique`, `built_names`, `C63_session`, `C64_partial`,
`C64_paste_partial`, `C64_together`, `C64_history`, `C65_partial`, `C65_last_partial`,
`C65_yank`, `C65_end_partial`, `C65_program`, `C66`, `C66_panics`, `C66_own`, `C67_reset`,
`C67_start`, `C67_partial`, `C67_whole_partial`, `C67_tabs_partial`, `C68_begins`, `C68_first`,
`C68_lines`, `C68_same_partial`, `C68_texts_partial`, `C69_texts_partial`, `C70_reads`,
`C70_units`, `C70_default`, `C70_insert`, `C70_history`, `C70_yank`, `C70_line`, `C70_valid`,
`C70_refuted_search`, `C70_refuted_predict`, `C70_refuted_browse`, `C71_trim`, `C71_predict`,
`C71_shown`, `C71_accept_partial`, `C71_program`, `C72_repaint_partial`, `C72_session_partial`,
`C72_shown_partial`, `C72_vimBatch_shown`, `C73_keys`, `C73_ends`, `C73_partial`,
`C73_returns_partial`, `C74_step`, `C74_start`, `C74_session`, `C74_returns`, `C75_partial`,
`C75_result_partial`, `C75_exclusive`, `C76_partial`, `C76_directory`, `C76_session_partial`,
`C76_panics`, `C76_hangs`, `C77_fields`, `C77_runs`, `C77_goes_on_partial`, `C77_script_partial`,
`C78_result_partial`, `C78_states_partial`, `C78_pages_partial`, `C78_total_partial`,
`C78_bound_partial`, `C78_usual_partial`, `C78_panic_partial`, `C78_refuted_stale`,
`C79_partial`, `C79_next_partial`, `C80_partial`, `poster_sign`, `C80_pages_partial`,
`C80_result_partial`, `C80_refuted_exchange`, `C81_partial`, `C81_layout`, `C81_cells`,
`C81_awaited`, `C81_lists`, `C81_panics`, `C81_back`, `C81_no_undo`, `C81_calm`, `C81_texts`,
`C81_behind`, `C81_ghost`, `C81_crash`, `C82_partial`, `C82_end_partial`, `C82_pages_partial`,
`C82_history_partial`, `C83_example3_partial`, `C83_example3_waits_partial`,
`C83_example3_end_partial`, `C83_example3_pages_partial`, `C83_partial`, `C83_end_partial`,
`replyLines_notebook`, `C84_foresees`, `C84_partial`, `C84_waits_partial`, `C84_end_partial`,
`C84_pages_partial`, `C85_partial`, `C85_waits_partial`, `C85_entered_partial`,
`C85_end_partial`, `C85_pages_partial`, `C85_lines`, `C86_partial`, `C86_rows_partial`,
`C86_files_partial`, `C86_editor_partial`, `C86_waits_partial`, `C86_editing_partial`,
`C86_edited`, `C86_enter_partial`, `C86_refuted_long`, `C87_partial`, `C87_page_partial`,
`C87_program_partial`, `C87_quoted_partial`, `C87_sgr_partial`, `C87_symbol_partial`,
`C87_vimBatch_partial`, `C87_refuted_left`, `C88_partial`, `C88_left_partial`,
`C88_vimBatch_partial`, `C88_monoChrome_partial`, `C88_shell_partial`, `C88_files_partial`,
`C88_prompt_partial`, `C88_main_partial`, `C89_partial`, `C89_found`, `C89_string`, `C89_own`,
`C89_hidden`, `C89_symbol`, `C89_string_refuted`, `C89_name_refuted`, `C89_symbol_refuted`,
`C90_partial`, `C90_end_partial`, `C90_ruler_partial`, `C90_main_partial`, `C90_rows_partial`,
`C90_joined`, `C90_pen_partial`, `C91_partial`, `C91_step_partial`, `C91_end_partial`.
