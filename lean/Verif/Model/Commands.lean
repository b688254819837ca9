import Verif.Model.Completion
/-!
# Commands

Models gommand.go, history.go and isearch.go.
-/
namespace Readline

/-! ## gommand.go -/

/-- `cmdAcceptLine`, gommand.go:48-50. -/
def cmdAcceptLine (s : St) : M (St × Result) := return (s, .enter)

/-- `cmdInterrupt`, gommand.go:56-62. -/
def cmdInterrupt (s : St) : M (St × Result) :=
  return ({ s with buf := [], cursor := 0, viewStart := 0, undoes := [] }, .intr)

/-- `cmdBeginningOfLine`, gommand.go:67-72. -/
def cmdBeginningOfLine (E : Env) (s : St) : M (St × Result) := do
  let s ← repaint E { s with cursor := 0, viewStart := 0 }
  return (s, .cont)

/-- `cmdBackwardChar`, gommand.go:77-87. -/
def cmdBackwardChar (E : Env) (s : St) : M (St × Result) := do
  if s.cursor ≤ 0 then return (s, .cont)
  let c := s.cursor - 1
  let s ← repaint E { s with cursor := c, viewStart := if c < s.viewStart then s.viewStart - 1 else s.viewStart }
  return (s, .cont)

/-- The loop of `cmdEndOfLine`, gommand.go:101-111: the new `ViewStart`. -/
def eolLoop (C : Cfg) (buf : List Cell) (vw : Int) : Nat → Int → Nat
  | 0, _ => 0
  | vs + 1, w =>
    match buf[vs]? with
    | none => vs + 1
    | some c =>
      let w' := w + c.moji.width C
      if w' ≥ vw then vs + 1 else eolLoop C buf vw vs w'

/-- `cmdEndOfLine`, gommand.go:92-117. -/
def cmdEndOfLine (E : Env) (s : St) : M (St × Result) := do
  let allength ← widthBetween E s s.viewStart s.len
  if allength < s.viewWidth then
    let s ← puts E s s.cursor s.len
    let s := { s with cursor := s.len }
    return (eraseline s, .cont)
  else
    let s := gotoHead s
    let last ← index s s.buf (s.len - 1)
    let vs := eolLoop E.cfg s.buf s.viewWidth (s.len - 1).toNat (last.moji.width E.cfg)
    let s := { s with viewStart := vs }
    let s ← puts E s s.viewStart s.len
    let s := { s with cursor := s.len }
    return (eraseline s, .cont)

/-- `cmdForwardChar`, gommand.go:122-149. -/
def cmdForwardChar (E : Env) (s : St) : M (St × Result) := do
  if s.cursor ≥ s.len then
    if s.suffixList.length > 0 then
      let s ← insertAndRepaint E s (s.suffixList.flatMap Moji.write)
      return (s, .cont)
    else return (s, .cont)
  else
    let w ← widthBetween E s s.viewStart (s.cursor + 1)
    if w < s.viewWidth then
      let s ← puts E s s.cursor (s.cursor + 1)
      return ({ s with cursor := s.cursor + 1 }, .cont)
    else
      let s := gotoHead s
      let c ← index s s.buf s.cursor
      let v ← index s s.buf s.viewStart
      let vs := if c.moji.width E.cfg > v.moji.width E.cfg then s.viewStart + 1 else s.viewStart
      let s := { s with viewStart := vs + 1 }
      let s ← puts E s s.viewStart (s.cursor + 1)
      let s := eraseline s
      return ({ s with cursor := s.cursor + 1 }, .cont)

/-- `cmdBackwardDeleteChar`, gommand.go:154-164. -/
def cmdBackwardDeleteChar (E : Env) (s : St) : M (St × Result) := do
  if s.cursor > 0 then
    let s := { s with cursor := s.cursor - 1 }
    let (s, _) ← deleteCells E s s.cursor 1
    let s := if s.cursor < s.viewStart then { s with viewStart := s.cursor } else s
    let s ← repaint E s
    return (s, .cont)
  else return (s, .cont)

/-- `cmdDeleteChar`, gommand.go:169-173. -/
def cmdDeleteChar (E : Env) (s : St) : M (St × Result) := do
  let (s, _) ← deleteCells E s s.cursor 1
  let s ← repaint E s
  return (s, .cont)

/-- `cmdDeleteOrAbort`, gommand.go:178-183. -/
def cmdDeleteOrAbort (E : Env) (s : St) : M (St × Result) :=
  if s.len > 0 then cmdDeleteChar E s else return (s, .abort)

/-- The insertion part of `SelfInserter.Call`, gommand.go:217-228. -/
def selfInsertTail (E : Env) (s : St) (keys : Bytes) : M (St × Result) := do
  let (s, mojis) ← insertString E s s.cursor keys
  let w ← widthBetween E s s.viewStart s.cursor
  let w1 := cellsWidth E.cfg mojis
  let s := { s with cursor := s.cursor + mojis.length }
  let s := if w + w1 ≥ s.viewWidth then resetViewStart E s else s
  let s ← repaint E s
  return (s, .cont)

/-- gommand.go:199-202: the key without the ESC of AltGr-shift. -/
def stripAlt : Bytes → Bytes
  | [0x1B, b] => [b]
  | k => k

/-- `(SelfInserter).Call`, gommand.go:198-229 (`mojiAndStringToString`, gommand.go:185-190,
is inlined). -/
def cmdSelfInsert (E : Env) (key : Bytes) (s : St) : M (St × Result) := do
  let keys := stripAlt key
  if areZeroWidthJoin E.cfg keys && decide (s.cursor > 0) then
    let c ← index s s.buf (s.cursor - 1)
    cmdBackwardDeleteChar E { s with pending := c.moji.write ++ keys }
  else if (areVariationSelectorLike E.cfg keys || areEmojiModifier E.cfg keys)
      && decide (s.cursor > 0) then
    let c ← index s s.buf (s.cursor - 1)
    let (s, _) ← cmdBackwardDeleteChar E s
    selfInsertTail E s (c.moji.write ++ keys)
  else if s.pending.length > 0 then
    selfInsertTail E { s with pending := [] } (s.pending ++ keys)
  else
    selfInsertTail E s keys

/-- `cmdKillLine`, gommand.go:234-245. -/
def cmdKillLine (E : Env) (s : St) : M (St × Result) := do
  let t ← subString s s.cursor s.len
  let s := { s with clip := E.clipSet s.clip t }
  let s := eraseline s
  let tail ← slice s s.buf s.cursor s.len
  let head ← slice s s.buf 0 s.cursor
  return ({ s with undoes := { pos := s.cursor, del := 0, text := cell2string tail } :: s.undoes,
                   buf := head }, .cont)

/-- `cmdKillWholeLine`, gommand.go:250-262. -/
def cmdKillWholeLine (s : St) : M (St × Result) := do
  let s := { s with undoes := { pos := 0, del := 0, text := s.text } :: s.undoes }
  let s := gotoHead s
  let s := eraseline s
  return ({ s with buf := [], cursor := 0, viewStart := 0 }, .cont)

/-- Skip white space to the left of `pos` (gommand.go:269-271, 402-404). -/
def skipSpacesLeft (buf : List Cell) : Nat → Nat
  | 0 => 0
  | n + 1 =>
    match buf[n]? with
    | some c => if c.moji.isSpace then skipSpacesLeft buf n else n + 1
    | none => n + 1

/-- Skip non-white space to the left of `pos` (gommand.go:405-407). -/
def skipWordLeft (buf : List Cell) : Nat → Nat
  | 0 => 0
  | n + 1 =>
    match buf[n]? with
    | some c => if c.moji.isSpace then n + 1 else skipWordLeft buf n
    | none => n + 1

/-- Skip cells satisfying `p` to the right, starting at `pos` (gommand.go:421-426). -/
def skipRight (p : Cell → Bool) : List Cell → Nat → Nat
  | [], pos => pos
  | c :: cs, pos => if p c then skipRight p cs (pos + 1) else pos

/-- The guard common to the loops above: `Buffer[Cursor-1]` must exist.  Simplification: a
cursor beyond the end (where only some of the callers panic) is the outcome `stale`. -/
def checkCursor (s : St) : M Unit :=
  if 0 ≤ s.cursor then
    if s.cursor ≤ s.len then .ok () else .error ⟨.stale, s⟩
  else .error ⟨.bounds, s⟩

/-- `cmdUnixWordRubout`, gommand.go:267-281. -/
def cmdUnixWordRubout (E : Env) (s : St) : M (St × Result) := do
  let org := s.cursor
  checkCursor s
  let s := { s with cursor := (skipSpacesLeft s.buf s.cursor.toNat : Nat) }
  let new ← currentWordTop E s
  let t ← subString s new org
  let s := { s with clip := E.clipSet s.clip t }
  let (s, _) ← deleteCells E s new (org - new)
  let s := { s with cursor := new }
  let s := if new - s.viewStart < 2 then resetViewStart E s else s
  let s ← repaint E s
  return (s, .cont)

/-- `cmdUnixLineDiscard`, gommand.go:286-293. -/
def cmdUnixLineDiscard (E : Env) (s : St) : M (St × Result) := do
  let t ← subString s 0 s.cursor
  let s := { s with clip := E.clipSet s.clip t }
  let (s, _) ← deleteCells E s 0 s.cursor
  let s ← repaint E { s with cursor := 0, viewStart := 0 }
  return (s, .cont)

/-- `cmdClearScreen`, gommand.go:298-302 (`ESC[1;1H ESC[2J`). -/
def cmdClearScreen (E : Env) (s : St) : M (St × Result) := do
  let s := s.emit (.lit [0x1B, 0x5B, 0x31, 0x3B, 0x31, 0x48, 0x1B, 0x5B, 0x32, 0x4A])
  let s ← repaintAll E s
  return (s, .cont)

/-- `cmdRepaintOnNewline`, gommand.go:306-310. -/
def cmdRepaintOnNewline (E : Env) (s : St) : M (St × Result) := do
  let s ← repaintAll E (s.emit (.lit [0x0A]))
  return (s, .cont)

/-- `cmdQuotedInsert`, gommand.go:315-323. -/
def cmdQuotedInsert (E : Env) (s : St) : M (St × Result) := do
  let s := s.emit .cursorOn
  match getKey s with
  | (some key, s) =>
    let (s, r) ← cmdSelfInsert E key s
    return (s.emit .cursorOff, r)
  | (none, s) => return (s.emit .cursorOff, .cont)

/-- `strings.TrimRight(text, "\r\n\000")`, gommand.go:333. -/
def trimRightCRLFNUL (t : Bytes) : Bytes :=
  (t.reverse.dropWhile (fun b => b == 0x0D || b == 0x0A || b == 0)).reverse

/-- `cmdYank`, gommand.go:328-336. -/
def cmdYank (E : Env) (s : St) : M (St × Result) := do
  match s.clip with
  | none => return (s, .cont)
  | some text =>
    let s ← insertAndRepaint E s (trimRightCRLFNUL text)
    return (s, .cont)

/-- `strings.Replace(text, old, new, -1)` for a non-empty `old`: left to right, not
overlapping.  The fuel `text.length` suffices since every round consumes a byte. -/
def replaceAllLoop (old new : Bytes) : Nat → Bytes → Bytes
  | 0, t => t
  | _ + 1, [] => []
  | n + 1, b :: t =>
    if old.isPrefixOf (b :: t) then new ++ replaceAllLoop old new n ((b :: t).drop old.length)
    else b :: replaceAllLoop old new n t

/-- `strings.Replace(text, old, new, -1)`, gommand.go:349-350. -/
def replaceAll (old new text : Bytes) : Bytes := replaceAllLoop old new text.length text

/-- gommand.go:346-351: quoting of the clipboard text. -/
def quoteText (text : Bytes) : Bytes :=
  if text.contains 0x20 && !([0x22].isPrefixOf text) then
    let t := [0x22] ++ replaceAll [0x22] [0x22, 0x22] text ++ [0x22]
    replaceAll [0x0D, 0x0A] [0x22, 0x0D, 0x0A, 0x22] t
  else text

/-- `cmdYankWithQuote`, gommand.go:341-354. -/
def cmdYankWithQuote (E : Env) (s : St) : M (St × Result) := do
  match s.clip with
  | none => return (s, .cont)
  | some text =>
    let s ← insertAndRepaint E s (quoteText text)
    return (s, .cont)

/-- Exchange the cells `i` and `i+1`. -/
def swapAt (l : List α) (i : Nat) : List α :=
  match l[i]?, l[i + 1]? with
  | some a, some b => (l.set i b).set (i + 1) a
  | _, _ => l

/-- `cmdSwapChar`, gommand.go:359-395. -/
def cmdSwapChar (E : Env) (s : St) : M (St × Result) := do
  if s.len = s.cursor then
    if s.cursor < 2 then return (s, .cont)
    let two ← slice s s.buf (s.cursor - 2) s.cursor
    let s := { s with undoes := { pos := s.cursor, del := 2, text := cell2string two } :: s.undoes,
                      buf := swapAt s.buf (s.cursor - 2).toNat }
    let s := gotoHead s
    let s ← puts E s s.viewStart s.cursor
    return (s, .cont)
  else
    if s.cursor < 1 then return (s, .cont)
    let two ← slice s s.buf (s.cursor - 1) (s.cursor + 1)
    let s := { s with undoes := { pos := s.cursor - 1, del := 2, text := cell2string two } :: s.undoes }
    let w ← widthBetween E s s.viewStart (s.cursor + 1)
    let s := { s with buf := swapAt s.buf (s.cursor - 1).toNat }
    let s := gotoHead s
    let s := if w ≥ s.viewWidth then { s with viewStart := s.viewStart + 1 } else s
    let s := { s with cursor := s.cursor + 1 }
    let s ← puts E s s.viewStart s.cursor
    return (s, .cont)

/-- `cmdBackwardWord`, gommand.go:400-414. -/
def cmdBackwardWord (E : Env) (s : St) : M (St × Result) := do
  checkCursor s
  let newPos : Int := (skipWordLeft s.buf (skipSpacesLeft s.buf s.cursor.toNat) : Nat)
  let s := if newPos < s.viewStart then { s with viewStart := newPos } else s
  let s ← repaint E { s with cursor := newPos }
  return (s, .cont)

/-- gommand.go:420-426: the position `cmdForwardWord` goes to. -/
def forwardWordPos (buf : List Cell) (cursor : Nat) : Nat :=
  let p := skipRight (fun c => !c.moji.isSpace) (buf.drop cursor) cursor
  skipRight (fun c => c.moji.isSpace) (buf.drop p) p

/-- `cmdForwardWord`, gommand.go:419-437. -/
def cmdForwardWord (E : Env) (s : St) : M (St × Result) := do
  checkCursor s
  let newPos : Int := (forwardWordPos s.buf s.cursor.toNat : Nat)
  let w ← widthBetween E s s.viewStart newPos
  if w < s.viewWidth then
    let s ← puts E s s.cursor newPos
    return ({ s with cursor := newPos }, .cont)
  else
    let s ← repaint E (resetViewStart E { s with cursor := newPos })
    return (s, .cont)

/-- `cmdUndo`, gommand.go:442-464. -/
def cmdUndo (E : Env) (s : St) : M (St × Result) := do
  match s.undoes with
  | [] => return (s.emit (.lit [0x07]), .cont)
  | u :: rest =>
    let s := { s with undoes := rest }
    let s := gotoHead s
    let b1 ← (if u.del > 0 then bufDelete s u.pos u.del else pure s.buf)
    let s := { s with buf := b1 }
    let s ← (if u.text ≠ [] then do
        let cells := mojis2cells (stringToMoji E.cfg u.text)
        let b2 ← bufInsert s u.pos cells
        pure { s with buf := b2, cursor := u.pos + cells.length }
      else pure { s with cursor := u.pos })
    let s ← repaint E (resetViewStart E s)
    return (s, .cont)

/-! ## history.go -/

/-- `History.At(i)` with a container that panics out of range (simplehistory/main.go:7-9). -/
def histAt (E : Env) (s : St) (i : Int) : M Bytes := index s E.history i

/-- `History.Len()`. -/
def Env.histLen (E : Env) : Int := E.history.length

/-- `saveModifiedHistory`, history.go:25-34. -/
def saveModifiedHistory (E : Env) (s : St) : M St := do
  let t := s.text
  let same ← (if s.histPtr < E.histLen then do return (← histAt E s s.histPtr) == t else pure false)
  if same then return s
  else return { s with modHist := fun i => if i = s.histPtr then some t else s.modHist i }

/-- `getHistory`, history.go:36-45. -/
def getHistory (E : Env) (s : St) : M Bytes :=
  match s.modHist s.histPtr with
  | some t => .ok t
  | none =>
    if s.histPtr < 0 ∨ s.histPtr ≥ E.histLen then .ok []
    else histAt E s s.histPtr

/-- The common tail of the two history commands, history.go:59-66 and 81-88. -/
def showHistory (E : Env) (s : St) : M (St × Result) := do
  let (s, _) ← cmdKillWholeLine s
  let t ← getHistory E s
  if t ≠ [] then
    let (s, _) ← insertString E s 0 t
    let s := { s with viewStart := 0, cursor := 0 }
    let (s, _) ← cmdEndOfLine E s
    return (s, .cont)
  else return (s, .cont)

/-- `cmdPreviousHistory`, history.go:47-67. -/
def cmdPreviousHistory (E : Env) (s : St) : M (St × Result) := do
  if E.histLen ≤ 0 then return (s, .cont)
  if s.histPtr ≤ 0 ∧ E.historyCycling = false then return (s, .cont)
  let s := if s.histPtr ≤ 0 then { s with histPtr := E.histLen + 1 } else s
  let s ← saveModifiedHistory E s
  showHistory E { s with histPtr := s.histPtr - 1 }

/-- `cmdNextHistory`, history.go:72-89. -/
def cmdNextHistory (E : Env) (s : St) : M (St × Result) := do
  if E.histLen ≤ 0 then return (s, .cont)
  if s.histPtr + 1 > E.histLen then return (s, .cont)
  let s ← saveModifiedHistory E s
  showHistory E { s with histPtr := s.histPtr + 1 }

/-! ## isearch.go -/

/-- `caseInsensitiveStringContains`, isearch.go:12-14. -/
def ciContains (E : Env) (s t : Bytes) : Bool := containsBytes (E.toUpper t) (E.toUpper s)

/-- The local variables of `cmdISearchBackward`, isearch.go:20-23.  `searchBuf` always
holds the same text as `searchStr` when a key is read, so it is not kept separately. -/
structure ISt where
  found : Bytes := []
  search : Bytes := []
  lastPos : Int
deriving Repr, DecidableEq

/-- The closure `update`, isearch.go:26-39: `n` is `i+1`. -/
def isearchUpdate (E : Env) (it : ISt) : Nat → ISt
  | 0 => { it with found := [] }
  | n + 1 =>
    match E.history[n]? with
    | none => { it with found := [] }
    | some line =>
      if ciContains E line it.search then { it with found := line, lastPos := n }
      else isearchUpdate E it n

/-- The `Ctrl-R` loop, isearch.go:92-105. -/
def isearchPrev (E : Env) (s : St) (it : ISt) : Nat → Int → M ISt
  | 0, _ => .error ⟨.diverge, s⟩
  | fuel + 1, i => do
    let i := if i < 0 then E.histLen - 1 else i
    if i = it.lastPos then return it
    let line ← histAt E s i
    if ciContains E line it.search ∧ it.found ≠ line then
      return { it with found := line, lastPos := i }
    isearchPrev E s it fuel (i - 1)

/-- The `Ctrl-S` loop, isearch.go:107-120. -/
def isearchNext (E : Env) (s : St) (it : ISt) : Nat → Int → M ISt
  | 0, _ => .error ⟨.diverge, s⟩
  | fuel + 1, i => do
    if i ≥ E.histLen then return it
    if i = it.lastPos then return it
    let line ← histAt E s i
    if ciContains E line it.search ∧ it.found ≠ line then
      return { it with found := line, lastPos := i }
    isearchNext E s it fuel (i + 1)

/-- The drawing loop, isearch.go:43-50. -/
def drawLoop (C : Cfg) (vw : Int) : List Moji → Int → St → M St
  | [], _, s => .ok s
  | m :: ms, dw, s => do
    let w1 := m.width C
    if dw + w1 ≥ vw then return s
    let s ← printMoji s m
    drawLoop C vw ms (dw + w1) s

/-- `fmt.Sprintf("(i-search)[%s]:%s", searchStr, foundStr)`, isearch.go:41. -/
def isearchDraw (it : ISt) : Bytes :=
  [0x28, 0x69, 0x2D, 0x73, 0x65, 0x61, 0x72, 0x63, 0x68, 0x29, 0x5B] ++ it.search
    ++ [0x5D, 0x3A] ++ it.found

/-- `unicode.IsControl`. -/
def isControlRune (r : Rune) : Bool := decide (r < 0x20) || (decide (0x7F ≤ r) && decide (r < 0xA0))

/-- isearch.go:62-71: the search text without its last rune. -/
def chopLast (t : Bytes) : Bytes := encodeRunes (runesOf t).dropLast

/-- The main loop of `cmdISearchBackward`, isearch.go:40-130. Every round reads a key, so
the fuel (number of events left + 1) suffices. What line 56 prints on stderr is left out. -/
def isearchLoop (E : Env) : Nat → ISt → St → M (St × Result)
  | 0, _, s => .error ⟨.diverge, s⟩
  | fuel + 1, it, s => do
    let s ← drawLoop E.cfg s.viewWidth (stringToMoji E.cfg (isearchDraw it)) 0 s
    let s := eraseline s
    let s := s.emit .cursorOn
    match getKey s with
    | (none, s) => return (s, .cont)
    | (some key, s) =>
      let s := s.emit .cursorOff
      let s := gotoHead s
      if key = [0x08] ∨ key = [0x7F] then
        let it := { it with search := chopLast it.search }
        isearchLoop E fuel (isearchUpdate E it E.history.length) s
      else if key = [0x0D] then
        let s := { s with viewStart := 0,
                          undoes := { pos := 0, del := 0, text := s.text } :: s.undoes,
                          buf := [], cursor := 0 }
        let s ← replaceAndRepaint E s 0 it.found
        return (s, .cont)
      else if key = [0x03] ∨ key = [0x07] ∨ key = [0x1B] then
        let (n, _) ← getView2 E s
        let s ← puts E s s.viewStart (s.viewStart + n)
        let s := eraseline s
        let s := gotoHead s
        let s ← puts E s s.viewStart s.cursor
        return (s, .cont)
      else if key = [0x12] then
        let it ← isearchPrev E s it (E.history.length + 2) (it.lastPos - 1)
        isearchLoop E fuel it s
      else if key = [0x13] then
        let it ← isearchNext E s it (E.history.length + 2) (it.lastPos + 1)
        isearchLoop E fuel it s
      else
        let charcode := (decodeRune key).1
        if isControlRune charcode then isearchLoop E fuel it s
        else
          let it := { it with search := it.search ++ encodeRune charcode }
          isearchLoop E fuel (isearchUpdate E it E.history.length) s

/-- `cmdISearchBackward`, isearch.go:19-131. -/
def cmdISearchBackward (E : Env) (s : St) : M (St × Result) :=
  isearchLoop E (s.input.length + 1) { lastPos := E.histLen - 1 } (gotoHead s)

/-! ## Dispatch -/

/-- `(Command).Call`: gommand.go:25-30, 198, keymap.go:87, completion/main.go:186, 200. -/
def Cmd.call (E : Env) : Cmd → St → M (St × Result)
  | .acceptLine, s => cmdAcceptLine s
  | .interrupt, s => cmdInterrupt s
  | .beginningOfLine, s => cmdBeginningOfLine E s
  | .backwardChar, s => cmdBackwardChar E s
  | .endOfLine, s => cmdEndOfLine E s
  | .forwardChar, s => cmdForwardChar E s
  | .backwardDeleteChar, s => cmdBackwardDeleteChar E s
  | .deleteChar, s => cmdDeleteChar E s
  | .deleteOrAbort, s => cmdDeleteOrAbort E s
  | .killLine, s => cmdKillLine E s
  | .killWholeLine, s => cmdKillWholeLine s
  | .unixWordRubout, s => cmdUnixWordRubout E s
  | .unixLineDiscard, s => cmdUnixLineDiscard E s
  | .clearScreen, s => cmdClearScreen E s
  | .repaintOnNewline, s => cmdRepaintOnNewline E s
  | .quotedInsert, s => cmdQuotedInsert E s
  | .yank, s => cmdYank E s
  | .yankWithQuote, s => cmdYankWithQuote E s
  | .swapChar, s => cmdSwapChar E s
  | .backwardWord, s => cmdBackwardWord E s
  | .forwardWord, s => cmdForwardWord E s
  | .undo, s => cmdUndo E s
  | .previousHistory, s => cmdPreviousHistory E s
  | .nextHistory, s => cmdNextHistory E s
  | .isearchBackward, s => cmdISearchBackward E s
  | .selfInsert k, s => cmdSelfInsert E k s
  | .completion P, s => cmdComplete E P s
  | .custom f, s => f s

end Readline
