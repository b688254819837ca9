import Verif.Model.Moji
import Verif.Model.Color
import Verif.Model.Slice
/-!
# The editing buffer

Models buffer.go, repaints.go and the parts of main.go and history.go they use.
-/
namespace Readline

/-- `Cell`, buffer.go:19-23. -/
structure Cell where
  moji : Moji
  color : Color := 0#64
  position : Int := 0
deriving Repr, DecidableEq

/-- `_Undo`, buffer.go:13-17. -/
structure Undo where
  pos : Int
  del : Nat
  text : Bytes
deriving Repr, DecidableEq

/-- Pieces of terminal output.  `Tok.bytes` gives the exact bytes. -/
inductive Tok where
  /-- literal bytes -/
  | lit (b : Bytes)
  /-- `ansiCursorOff`, main.go:58 -/
  | cursorOff
  /-- `ansiCursorOn`, main.go:62 -/
  | cursorOn
  /-- `ESC[nG`, repaints.go:54 -/
  | gotoCol (n : Int)
  /-- `ESC[0K`, buffer.go:249 -/
  | eraseEol
  /-- `ColorSequence.WriteTo`, buffer.go:260,265 -/
  | sgr (c : Color)
  /-- `Moji.PrintTo`, buffer.go:262 -/
  | glyph (m : Moji)
  /-- `bufio.Writer.Flush` -/
  | flush
  /-- `Flush` followed by waiting for a key, buffer.go:244-245 -/
  | await
deriving Repr, DecidableEq

/-- The bytes of a piece of output. -/
def Tok.bytes (C : Cfg) : Tok → Bytes
  | .lit b => b
  | .cursorOff => [0x1B, 0x5B, 0x3F, 0x32, 0x35, 0x6C]
  | .cursorOn => [0x1B, 0x5B, 0x3F, 0x32, 0x35, 0x68, 0x1B, 0x5B, 0x73, 0x1B, 0x5B, 0x75]
  | .gotoCol n => [0x1B, 0x5B] ++ decInt n ++ [0x47]
  | .eraseEol => [0x1B, 0x5B, 0x30, 0x4B]
  | .sgr c => c.write
  | .glyph m => m.print C
  | .flush => []
  | .await => []

/-- What the terminal delivers: a key, an error of `Tty.GetKey`, or a new width for the
resize callback. -/
inductive Ev where
  | key (k : Bytes)
  | err (e : Bytes)
  | resize (w : Int)
deriving Repr, DecidableEq

/-- `Buffer` (buffer.go:32-43) together with the mutable `Editor` field `Cursor`
(main.go:47) and the outside world the commands talk to: clipboard (`none` = read error),
remaining input, terminal output.  `undoes` is kept with the last entry first.
`modHist` is the map `modifiedHistory`; `suffix = none` is the nil slice. `promptN` counts the calls of `PromptWriter`. -/
structure St where
  buf : List Cell := []
  cursor : Int := 0
  suffix : Option (List Moji) := none
  viewStart : Int := 0
  termWidth : Int := 80
  topColumn : Int := 0
  histPtr : Int := 0
  undoes : List Undo := []
  pending : Bytes := []
  modHist : Int → Option Bytes := fun _ => none
  clip : Option Bytes := none
  input : List Ev := []
  promptN : Nat := 0
  out : List Tok := []

/-- The ways the Go program panics. -/
inductive PanicKind where
  /-- index or slice bounds out of range -/
  | bounds
  /-- a slice `l[lo:hi]` with `hi` beyond the length: Go compares `hi` with the capacity,
  so it panics or goes on with stale cells; the model stops here -/
  | stale
  /-- `"    "[t.pos%4:]` with a negative position, codepoint.go:19 -/
  | tabPos
  /-- a loop that does not end (only used with fuel; shown unreachable) -/
  | diverge
deriving Repr, DecidableEq

/-- A panic and the state it happened in. -/
structure Panic where
  kind : PanicKind
  st : St

abbrev M := Except Panic

/-- `Result`, main.go:19-30. -/
inductive Result where
  | cont | enter | abort | intr
deriving Repr, DecidableEq

/-- Unicode tables of the Go library, as parameters.
* `upper`: `unicode.ToUpper`
* `fold`: a representative of the simple-folding orbit of a rune; two runes are equal for
  `strings.EqualFold` iff they have the same representative. -/
structure Uni where
  upper : Rune → Rune
  fold : Rune → Rune

/-- `Completion`, completion/main.go:12-16; `List` is a function of the fields. -/
structure Completer where
  delimiters : Bytes
  enclosures : Bytes
  list : List Bytes → List Bytes × List Bytes

/-- `CmdCompletion` and `CmdCompletionOrList`, completion/main.go:177-180, 191-194.  The latter has
`box`: what `box.Print` (third-party package) writes for a list. -/
structure Completing where
  uni : Uni
  completer : Completer
  postfix_ : Bytes
  box : Option (List Bytes → Bytes)

/-- A key-bound command: the built-in `GoCommand`s (gommand.go, history.go, isearch.go), a
`SelfInserter` (gommand.go:192), the commands of the package `completion`, or any other
implementation of `Command` (keymap.go:10-13), which may do anything to the buffer. -/
inductive Cmd where
  | acceptLine | interrupt | beginningOfLine | backwardChar | endOfLine | forwardChar
  | backwardDeleteChar | deleteChar | deleteOrAbort | killLine | killWholeLine
  | unixWordRubout | unixLineDiscard | clearScreen | repaintOnNewline | quotedInsert
  | yank | yankWithQuote | swapChar | backwardWord | forwardWord | undo
  | previousHistory | nextHistory | isearchBackward
  | selfInsert (k : Bytes)
  | completion (P : Completing)
  | custom (f : St → M (St × Result))

/-- `KeyMap`, keymap.go:58-60; `none` is the nil map. -/
abbrev KeyMap := Option (Bytes → Option Cmd)

/-- `Editor` (main.go:40-55): the fields that do not change during one `ReadLine`, and the
library functions it uses.
* `predictor`: `Predictor`, a function of the history and the current text; `none` = nil = `predictByHistory`
* `prompt`: `PromptWriter`; what it writes may differ from call to call
* `promptErr`: the error of writing the prompt, main.go:194-198
* `delimiters`: the package variable `Delimiters`, buffer.go:184
* `toUpper`: `strings.ToUpper`
* `keyMap`: the embedded `KeyMap`; `globalKeyMap`: the variable `GlobalKeyMap`, keymap.go:16
* `clipSet`: what a `clipboard.WriteAll` makes of the clipboard (it may fail). -/
structure Env where
  cfg : Cfg
  history : List Bytes := []
  historyCycling : Bool := false
  predictColor : Bytes × Bytes := ([], [])
  predictor : Option (List Bytes → Bytes → Bytes) := none
  coloring : Coloring := monoChrome
  prompt : Option (Nat → Bytes) := none
  promptErr : Option Bytes := none
  lineFeed : Option (Result → Bytes) := none
  default : Bytes := []
  delimiters : List Rune := [0x22, 0x27]
  toUpper : Bytes → Bytes := id
  clipSet : Option Bytes → Bytes → Option Bytes := fun _ t => some t
  keyMap : KeyMap := none
  globalKeyMap : KeyMap

/-! ## Checked slices -/

/-- `l[lo:hi]` with Go's bounds check.  Simplification: Go compares `hi` with the capacity
of the slice, which is not modelled; a `hi` between the length and the capacity would give
stale cells.  The model stops with the separate outcome `stale` whenever `hi` exceeds the
length. -/
def slice (s : St) (l : List α) (lo hi : Int) : M (List α) :=
  if 0 ≤ lo ∧ lo ≤ hi then
    if hi ≤ (l.length : Int) then .ok ((l.take hi.toNat).drop lo.toNat)
    else .error ⟨.stale, s⟩
  else .error ⟨.bounds, s⟩

/-- `l[i]` with Go's bounds check. -/
def index (s : St) (l : List α) (i : Int) : M α :=
  if i < 0 then .error ⟨.bounds, s⟩
  else match l[i.toNat]? with
    | some a => .ok a
    | none => .error ⟨.bounds, s⟩

/-! ## buffer.go -/

/-- `len(B.Buffer)`. -/
def St.len (s : St) : Int := s.buf.length

/-- `cell2string`, buffer.go:277-283 (also `Cell.String`, buffer.go:25-29). -/
def cell2string (cs : List Cell) : Bytes := cs.flatMap (fun c => c.moji.write)

/-- `(Buffer).String`, buffer.go:178-180. -/
def St.text (s : St) : Bytes := cell2string s.buf

/-- `_Range.Width`, buffer.go:270-275. -/
def cellsWidth (C : Cfg) (cs : List Cell) : Int := (cs.map (fun c => c.moji.width C)).sum

/-- `ViewWidth`, buffer.go:78-80 (`forbiddenWidth` = 3, buffer.go:11). -/
def St.viewWidth (s : St) : Int := s.termWidth - s.topColumn - 3

/-- Write to `B.Out`. -/
def St.emit (s : St) (t : Tok) : St := { s with out := s.out ++ [t] }

/-- `Moji.PrintTo(B.Out)` with the possible panic of codepoint.go:19. -/
def printMoji (s : St) (m : Moji) : M St :=
  if m.printPanics then .error ⟨.tabPos, s⟩ else .ok (s.emit (.glyph m))

/-- The search loop of `predictByHistory`, buffer.go:57-62, over the history, newest first. -/
def predictLoop (current : Bytes) : List Bytes → Bytes
  | [] => []
  | h :: rest => if current.isPrefixOf h then h.drop current.length else predictLoop current rest

/-- `predictByHistory`, buffer.go:55-64. -/
def predictByHistory (history : List Bytes) (current : Bytes) : Bytes :=
  predictLoop current history.reverse

/-- `B.Predictor(B)`: main.go:152-154. -/
def Env.predict (E : Env) (current : Bytes) : Bytes :=
  match E.predictor with
  | none => predictByHistory E.history current
  | some f => f E.history current

/-- `B.suffix` as a list (nil is empty). -/
def St.suffixList (s : St) : List Moji := s.suffix.getD []

/-- `updateSuffix`, buffer.go:66-75. -/
def updateSuffix (E : Env) (s : St) : St :=
  if E.predictColor.1 = [] then s
  else if s.buf.length = 0 then { s with suffix := none }
  else { s with suffix := some <| stringToMoji E.cfg (E.predict s.text) }

/-- `Suffix`, buffer.go:45-53. -/
def St.visibleSuffix (E : Env) (s : St) : List Moji :=
  if E.predictColor.1 = [] then []
  else if s.cursor ≠ s.len then []
  else s.suffixList

/-- The loop of `getView`, buffer.go:86-92: number of cells in the view and their width. -/
def viewLoop (C : Cfg) (width : Int) : List Cell → Int → Nat → Nat × Int
  | [], w, n => (n, w)
  | c :: cs, w, n =>
    let w' := w + c.moji.width C
    if w' ≥ width then (n, w) else viewLoop C width cs w' (n + 1)

/-- `getView`, buffer.go:82-94: the view is `Buffer[ViewStart : ViewStart+n]`. -/
def getView (E : Env) (s : St) : M (Nat × Int) := do
  let view ← slice s s.buf s.viewStart s.len
  return viewLoop E.cfg s.viewWidth view 0 0

/-- `mojis2cells`, buffer.go:112-118. -/
def mojis2cells (ms : List Moji) : List Cell := ms.map (fun m => { moji := m })

/-- `sliceInsert` on `B.Buffer` with its bounds checks (slice.go:8,11). -/
def bufInsert (s : St) (pos : Int) (cs : List Cell) : M (List Cell) :=
  if 0 ≤ pos ∧ pos ≤ s.len then .ok (sliceInsert s.buf pos.toNat cs)
  else .error ⟨.bounds, s⟩

/-- `sliceDelete` on `B.Buffer` with its bounds checks (slice.go:17,18). -/
def bufDelete (s : St) (pos : Int) (n : Nat) : M (List Cell) :=
  if 0 ≤ pos ∧ pos + n ≤ s.len then .ok (sliceDelete s.buf pos.toNat n)
  else .error ⟨.bounds, s⟩

/-- `insert`, buffer.go:102-110. -/
def insertCells (s : St) (pos : Int) (cs : List Cell) : M St := do
  let b ← bufInsert s pos cs
  return { s with buf := b, undoes := { pos := pos, del := cs.length, text := [] } :: s.undoes }

/-- `insertString`, buffer.go:120-124, and `InsertString`, buffer.go:128-130.  Returns the
inserted cells. -/
def insertString (E : Env) (s : St) (pos : Int) (str : Bytes) : M (St × List Cell) := do
  let list := mojis2cells (stringToMoji E.cfg str)
  let s ← insertCells s pos list
  return (s, list)

/-- `Delete`, buffer.go:135-148 (the returned width is `GetWidthBetween`). -/
def deleteCells (E : Env) (s : St) (pos n : Int) : M (St × Int) := do
  if n ≤ 0 ∨ s.len < pos + n then
    return (s, 0)
  else
    let del ← slice s s.buf pos (pos + n)
    let s1 := { s with undoes := { pos := pos, del := 0, text := cell2string del } :: s.undoes }
    let b ← bufDelete s1 pos n.toNat
    return ({ s1 with buf := b }, cellsWidth E.cfg del)

/-- The inner loop of `ResetViewStart`, buffer.go:157-164: `none` is the early return. -/
def resetInner (C : Cfg) (buf : List Cell) (vw : Int) : Nat → Nat → Int → Nat × Option Int
  | 0, vs, w => (vs, if w ≥ vw then none else some w)
  | fuel + 1, vs, w =>
    if w ≥ vw then
      match buf[vs]? with
      | none => (vs, none)
      | some c => resetInner C buf vw fuel (vs + 1) (w - c.moji.width C)
    else (vs, some w)

/-- The outer loop of `ResetViewStart`, buffer.go:155-165, over the cells `i..`.  `cursor+1-i`
cells are still to be visited. The fuel `len+1` of the inner loop suffices because `vs`
grows with every round and the loop returns at `vs = len`. -/
def resetOuter (C : Cfg) (buf : List Cell) (vw cursor : Int) : List Cell → Int → Nat → Int → Nat
  | [], _, vs, _ => vs
  | c :: cs, i, vs, w =>
    if i ≤ cursor then
      match resetInner C buf vw (buf.length + 1) vs (w + c.moji.width C) with
      | (vs, some w) => resetOuter C buf vw cursor cs (i + 1) vs w
      | (vs, none) => vs
    else vs

/-- `ResetViewStart`, buffer.go:152-166. -/
def resetViewStart (E : Env) (s : St) : St :=
  { s with viewStart := resetOuter E.cfg s.buf s.viewWidth s.cursor s.buf 0 0 0 }

/-- `GetWidthBetween`, buffer.go:169-171. -/
def widthBetween (E : Env) (s : St) (lo hi : Int) : M Int := do
  let cs ← slice s s.buf lo hi
  return cellsWidth E.cfg cs

/-- `SubString`, buffer.go:174-176. -/
def subString (s : St) (lo hi : Int) : M Bytes := do
  let cs ← slice s s.buf lo hi
  return cell2string cs

/-- The loop of `CurrentWordTop`, buffer.go:190-205.  `quoted = 0` means no quotation. -/
def wordTopLoop (delims : List Rune) : List Cell → Int → Int → Rune → Int
  | [], _, wordTop, _ => wordTop
  | c :: cs, i, wordTop, quoted =>
    match c.moji.toRune? with
    | none => wordTopLoop delims cs (i + 1) wordTop quoted
    | some ch =>
      let quoted' :=
        if quoted = 0 then (if delims.contains ch then ch else 0)
        else if ch = quoted then 0 else quoted
      let wordTop' :=
        if isSpaceRune ch && quoted' == 0 then -1
        else if wordTop < 0 then i else wordTop
      wordTopLoop delims cs (i + 1) wordTop' quoted'

/-- `CurrentWordTop`, buffer.go:187-210. -/
def currentWordTop (E : Env) (s : St) : M Int := do
  let cs ← slice s s.buf 0 s.cursor
  let t := wordTopLoop E.delimiters cs 0 (-1) 0
  return if t < 0 then s.cursor else t

/-- `CurrentWord`, buffer.go:213-216. -/
def currentWord (E : Env) (s : St) : M (Bytes × Int) := do
  let start ← currentWordTop E s
  let w ← subString s start s.cursor
  return (w, start)

/-- `joinUndo`, buffer.go:218-240. -/
def joinUndo (s : St) : St :=
  match s.undoes with
  | u2 :: u1 :: rest =>
    if u1.pos ≠ u2.pos then s
    else if u1.text ≠ [] ∧ u2.text ≠ [] then s
    else if u1.del ≠ 0 ∧ u2.del ≠ 0 then s
    else
      let u := { pos := u1.pos,
                 text := if u1.text = [] then u2.text else u1.text,
                 del := if u1.del = 0 then u2.del else u1.del }
      { s with undoes := u :: rest }
  | _ => s

/-- First key (or error) of the input; resizes stay queued because the resize callback
waits for the editor's mutex (main.go:175-181, 216). -/
def popKey : List Ev → Option (Ev × List Ev)
  | [] => none
  | .resize w :: rest =>
    match popKey rest with
    | some (k, rest') => some (k, .resize w :: rest')
    | none => none
  | e :: rest => some (e, rest)

/-- `(*Buffer).GetKey`, buffer.go:243-246.  An exhausted input is an error (end of file). -/
def getKey (s : St) : Option Bytes × St :=
  let s := s.emit .await
  match popKey s.input with
  | some (.key k, rest) => (some k, { s with input := rest })
  | some (_, rest) => (none, { s with input := rest })
  | none => (none, s)

/-! ## repaints.go -/

/-- `CursorPositionDummyRune`, repaints.go:12. -/
def cursorDummyRune : Rune := 0xE000

/-- `Coloring.Next` over a list of runes, last colour wins (repaints.go:31-35). -/
def nextAll (K : Coloring) : K.σ → Color → List Rune → K.σ × Color
  | σ, c, [] => (σ, c)
  | σ, _, r :: rs => let (σ', c') := K.next σ r; nextAll K σ' c' rs

/-- One iteration of the loop of `refreshColor`, repaints.go:23-38: the new cell, the next
position and colouring state. -/
def refreshCell (C : Cfg) (K : Coloring) (σ : K.σ) (position : Int) (cell : Cell) :
    K.σ × Int × Cell :=
  match cell.moji with
  | .tab _ =>
    let (σ', col) := K.next σ 9
    let m := Moji.tab position
    (σ', toInt16 (position + toInt16 (m.width C)), { moji := m, color := col, position := position })
  | m =>
    match m.toRune? with
    | some r =>
      let (σ', col) := K.next σ r
      (σ', toInt16 (position + toInt16 (m.width C)), { moji := m, color := col, position := position })
    | none =>
      let (σ', col) := nextAll K σ 0#64 (runesOf (m.print C))
      (σ', toInt16 (position + toInt16 (m.width C)), { moji := m, color := col, position := position })

/-- The loop of `refreshColor`, repaints.go:19-39. -/
def refreshLoop (C : Cfg) (K : Coloring) (cursor : Int) :
    K.σ → Int → Int → List Cell → List Cell
  | _, _, _, [] => []
  | σ, i, position, cell :: rest =>
    let σ := if i = cursor then (K.next σ cursorDummyRune).1 else σ
    let (σ', position', cell') := refreshCell C K σ position cell
    cell' :: refreshLoop C K cursor σ' (i + 1) position' rest

/-- Does repaints.go:30 panic?  Only a tab inside a joined sequence is printed there. -/
def Cell.refreshPanics (c : Cell) : Bool :=
  match c.moji with
  | .tab _ => false
  | m => m.toRune?.isNone && m.printPanics

/-- `refreshColor`, repaints.go:15-44.  The final call of `Next` (line 40-42) has no effect
on the result. -/
def refreshColor (E : Env) (s : St) : M St :=
  if s.buf.any Cell.refreshPanics then .error ⟨.tabPos, s⟩
  else .ok { s with buf := refreshLoop E.cfg E.coloring s.cursor E.coloring.init 0 0 s.buf }

/-- The loop of `puts`, buffer.go:257-263; returns the last colour written. -/
def putsLoop : List Cell → Color → St → M (St × Color)
  | [], color, s => .ok (s, color)
  | c :: cs, color, s => do
    let s := if c.color ≠ color then s.emit (.sgr c.color) else s
    let s ← printMoji s c.moji
    putsLoop cs c.color s

/-- `puts(B.Buffer[lo:hi])`, buffer.go:254-268.  All callers pass a slice of `B.Buffer`, so
the cells printed are the refreshed ones. -/
def puts (E : Env) (s : St) (lo hi : Int) : M St := do
  let _ ← slice s s.buf lo hi
  let s ← refreshColor E s
  let cs ← slice s s.buf lo hi
  let (s, color) ← putsLoop cs (-1#64) s
  return if color ≠ E.coloring.defaultColor then s.emit (.sgr E.coloring.defaultColor) else s

/-- `GotoHead`, repaints.go:53-55. -/
def gotoHead (s : St) : St := s.emit (.gotoCol (s.topColumn + 1))

/-- `eraseline`, buffer.go:248-250. -/
def eraseline (s : St) : St := s.emit .eraseEol

/-- The loop printing the prediction, repaints.go:68-74. -/
def suffixLoop (C : Cfg) (vw : Int) : List Moji → Int → St → M St
  | [], _, s => .ok s
  | m :: ms, w, s => do
    let w := w + m.width C
    if w ≥ vw then return s
    let s ← printMoji s m
    suffixLoop C vw ms w s

/-- `getView2`, buffer.go:96-100: view length, number of cells left of the cursor, width.
`v[:x]` is bounds-checked against the cells after `ViewStart` (in Go: the capacity). -/
def getView2 (E : Env) (s : St) : M (Nat × Int) := do
  let (n, w) ← getView E s
  let _ ← slice s s.buf s.viewStart s.cursor
  return (n, w)

/-- `repaintWithoutUpdateSuffix`, repaints.go:62-80. -/
def repaintNoSuffix (E : Env) (s : St) : M St := do
  let (n, w) ← getView2 E s
  let s := gotoHead s
  let s ← puts E s s.viewStart (s.viewStart + n)
  let s ← (if E.predictColor.1 ≠ [] ∧ s.suffixList.length > 0 then do
      let s := s.emit (.lit E.predictColor.1)
      let s ← suffixLoop E.cfg s.viewWidth (s.visibleSuffix E) w s
      return s.emit (.lit E.predictColor.2)
    else return s)
  let s := eraseline s
  let s := gotoHead s
  puts E s s.viewStart s.cursor

/-- `repaint`, repaints.go:57-60 (also `DrawFromHead`, repaints.go:84-86). -/
def repaint (E : Env) (s : St) : M St := repaintNoSuffix E (updateSuffix E s)

/-- `ReplaceAndRepaint`, repaints.go:89-98. -/
def replaceAndRepaint (E : Env) (s : St) (pos : Int) (str : Bytes) : M St := do
  let (s, _) ← deleteCells E s pos (s.cursor - pos)
  let (s, ins) ← insertString E s pos str
  let s := { s with cursor := pos + ins.length }
  let s := joinUndo s
  let s := resetViewStart E s
  repaint E s

/-- `InsertAndRepaint`, repaints.go:47-49. -/
def insertAndRepaint (E : Env) (s : St) (str : Bytes) : M St := replaceAndRepaint E s s.cursor str

/-- `RepaintAfterPrompt`, repaints.go:101-104. -/
def repaintAfterPrompt (E : Env) (s : St) : M St := repaint E (resetViewStart E s)

/-! ## The prompt (main.go) -/

/-- State of `cutEscapeSequenceAndOldLine`, main.go:82-84. -/
structure CutSt where
  buffer : Bytes := []
  esc : Bool := false
  title : Bool := false
deriving Repr, DecidableEq

/-- One iteration of the loop, main.go:86-111. -/
def cutStep (st : CutSt) (r : UInt8) : CutSt :=
  if r = 0x0D ∨ r = 0x0A then { st with buffer := [] }
  else if r = 0x1B then { st with esc := true }
  else if st.title then
    if r = 0x07 then { st with title := false, esc := false } else st
  else if st.esc then
    if r = 0x5D then { st with title := true }
    else if (0x41 ≤ r ∧ r ≤ 0x5A) ∨ (0x61 ≤ r ∧ r ≤ 0x7A) then { st with esc := false }
    else st
  else if r = 0x08 then
    let d := decodeLastRune st.buffer
    if d.1 ≠ runeError then { st with buffer := st.buffer.take (st.buffer.length - d.2) } else st
  else { st with buffer := st.buffer ++ [r] }

/-- `cutEscapeSequenceAndOldLine`, main.go:81-114. -/
def cutEscapeSequenceAndOldLine (s : Bytes) : Bytes := (s.foldl cutStep {}).buffer

/-- `callPromptWriter`, main.go:116-127: the width of the prompt and the state after writing
it (the write error is `Env.promptErr`). -/
def callPromptWriter (E : Env) (s : St) : Int × St :=
  match E.prompt with
  | none => (2, s.emit (.lit [0x0A, 0x3E, 0x20]))
  | some p =>
    let prompt := p s.promptN
    ((mojiWidthAndCount E.cfg (cutEscapeSequenceAndOldLine prompt)).1,
      { s with promptN := s.promptN + 1 }.emit (.lit prompt))

/-- `RepaintAll`, repaints.go:107-111. -/
def repaintAll (E : Env) (s : St) : M St :=
  let s := s.emit .flush
  let (w, s) := callPromptWriter E s
  repaint E { s with topColumn := w }

/-- `RepaintLastLine`, repaints.go:115-129. -/
def repaintLastLine (E : Env) (s : St) : M St :=
  let s := s.emit .flush
  match E.prompt with
  | none => repaint E (s.emit (.lit [0x0D, 0x3E, 0x20]))
  | some p =>
    let prompt := (0x0D :: p s.promptN).map (fun b => if b = 0x0A then 0x0D else b)
    repaint E ({ s with promptN := s.promptN + 1 }.emit (.lit prompt))

end Readline
