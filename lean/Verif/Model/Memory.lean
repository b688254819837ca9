import Verif.Model.ReadLine
/-!
# The memory of the line

`Model/Buffer.lean` takes `B.Buffer` for a list and stops (`PanicKind.stale`) where a slice reaches beyond
the length of the line.  Here `B.Buffer` is what it is in Go: the first cells of an array.  Cells that are
deleted stay in the array behind the line; `append` overwrites them, or moves the line to a larger array
when the old one is full; a slice may reach up to the capacity.

Everything that touches the array is modelled again.  What neither changes the length of the line nor takes
a slice of it (printing, the prompt, keys, `refreshColor`, `ResetViewStart`, the history) is run on the
state as before (`Mem.run`).

Simplifications: a cell behind the line keeps the position its tab had when it left the line, also where
`copy` has left the same `*Tab` in the line; a command of the calling program (`Cmd.custom`) leaves the
memory alone.
-/
namespace Readline

/-- The state and the cells of the array behind the line; `none` is a cell that was never written to (its
`Moji` is nil). -/
structure Mem where
  st : St
  spare : List (Option Cell)

/-- The ways to panic: as before, or by calling a method of a nil `Moji`. -/
inductive Fault where
  | go (k : PanicKind)
  | nilMoji
deriving Repr, DecidableEq

abbrev HM := Except (Fault × Mem)

/-- How the Go runtime chooses the capacity when `append` needs a larger array: a function of the old
capacity and the length that is needed (`runtime.growslice`); the result is not smaller than the latter. -/
abbrev Grow := Nat → Nat → Nat

/-- The array. -/
def Mem.array (m : Mem) : List (Option Cell) := m.st.buf.map some ++ m.spare

/-- Code that does not touch the memory behind the line. -/
def Mem.run (m : Mem) (x : M α) : HM α :=
  match x with
  | .ok a => .ok a
  | .error e => .error (.go e.kind, { m with st := e.st })

/-- `Buffer[lo:hi]`: the upper bound is compared with the capacity. -/
def memSlice (m : Mem) (lo hi : Int) : HM (List (Option Cell)) :=
  if 0 ≤ lo ∧ lo ≤ hi ∧ hi ≤ (m.array.length : Int) then .ok ((m.array.take hi.toNat).drop lo.toNat)
  else .error (.go .bounds, m)

/-- The cells of which a method of the `Moji` is called one after the other. -/
def liveCells (m : Mem) : List (Option Cell) → HM (List Cell)
  | [] => .ok []
  | none :: _ => .error (.nilMoji, m)
  | some c :: cs => do
    let rest ← liveCells m cs
    return c :: rest

/-- `slice = append(slice, elements...)`, slice.go:5: what is behind the line afterwards. -/
def appendSpare (G : Grow) (m : Mem) (n : Nat) : List (Option Cell) :=
  let len := m.st.buf.length
  let cap := len + m.spare.length
  if len + n ≤ cap then m.spare.drop n
  else List.replicate (max (G cap (len + n)) (len + n) - (len + n)) none

/-- `B.Buffer = sliceInsert(B.Buffer, pos, cs...)`, slice.go:3-14. -/
def memInsert (G : Grow) (m : Mem) (pos : Int) (cs : List Cell) : HM Mem := do
  let b ← m.run (bufInsert m.st pos cs)
  return { st := { m.st with buf := b }, spare := appendSpare G m cs.length }

/-- `B.Buffer = sliceDelete(B.Buffer, pos, n)`, slice.go:16-19: the last `n` cells stay behind the line. -/
def memDelete (m : Mem) (pos : Int) (n : Nat) : HM Mem := do
  let b ← m.run (bufDelete m.st pos n)
  let moved := goCopyWithin m.st.buf pos.toNat (pos.toNat + n)
  return { st := { m.st with buf := b }, spare := (moved.drop (m.st.buf.length - n)).map some ++ m.spare }

/-- `B.Buffer = B.Buffer[:n]` for an `n` that is not larger than the length. -/
def memCut (m : Mem) (n : Nat) : Mem :=
  { st := { m.st with buf := m.st.buf.take n }, spare := (m.st.buf.drop n).map some ++ m.spare }

/-! ## buffer.go and repaints.go -/

/-- `insert` and `insertString`, buffer.go:102-130. -/
def memInsertString (E : Env) (G : Grow) (m : Mem) (pos : Int) (str : Bytes) : HM (Mem × List Cell) := do
  let list := mojis2cells (stringToMoji E.cfg str)
  let m ← memInsert G m pos list
  return ({ m with st := { m.st with undoes := { pos := pos, del := list.length, text := [] } :: m.st.undoes } }, list)

/-- `GetWidthBetween`, buffer.go:169-171. -/
def memWidth (E : Env) (m : Mem) (lo hi : Int) : HM Int := do
  let cs ← memSlice m lo hi
  let cs ← liveCells m cs
  return cellsWidth E.cfg cs

/-- `SubString`, buffer.go:174-176. -/
def memSub (m : Mem) (lo hi : Int) : HM Bytes := do
  let cs ← memSlice m lo hi
  let cs ← liveCells m cs
  return cell2string cs

/-- `Delete`, buffer.go:135-148. -/
def memDeleteCells (E : Env) (m : Mem) (pos n : Int) : HM (Mem × Int) := do
  if n ≤ 0 ∨ m.st.len < pos + n then
    return (m, 0)
  else
    let t ← memSub m pos (pos + n)
    let m := { m with st := { m.st with undoes := { pos := pos, del := 0, text := t } :: m.st.undoes } }
    let w ← memWidth E m pos (pos + n)
    let m ← memDelete m pos n.toNat
    return (m, w)

/-- The loop of `CurrentWordTop`, buffer.go:190-205; `MojiToRune` of a nil `Moji` is not ok. -/
def memWordTopLoop (delims : List Rune) : List (Option Cell) → Int → Int → Rune → Int
  | [], _, wordTop, _ => wordTop
  | c :: cs, i, wordTop, quoted =>
    match c.bind (fun c => c.moji.toRune?) with
    | none => memWordTopLoop delims cs (i + 1) wordTop quoted
    | some ch =>
      let quoted' :=
        if quoted = 0 then (if delims.contains ch then ch else 0)
        else if ch = quoted then 0 else quoted
      let wordTop' :=
        if isSpaceRune ch && quoted' == 0 then -1
        else if wordTop < 0 then i else wordTop
      memWordTopLoop delims cs (i + 1) wordTop' quoted'

/-- `CurrentWordTop`, buffer.go:187-210. -/
def memWordTop (E : Env) (m : Mem) : HM Int := do
  let cs ← memSlice m 0 m.st.cursor
  let t := memWordTopLoop E.delimiters cs 0 (-1) 0
  return if t < 0 then m.st.cursor else t

/-- The loop of `puts`, buffer.go:257-263. -/
def memPutsLoop : List (Option Cell) → Color → Mem → HM (Mem × Color)
  | [], color, m => .ok (m, color)
  | none :: _, _, m => .error (.nilMoji, m)
  | some c :: cs, color, m => do
    let s := if c.color ≠ color then m.st.emit (.sgr c.color) else m.st
    let s ← m.run (printMoji s c.moji)
    memPutsLoop cs c.color { m with st := s }

/-- `puts(B.Buffer[lo:hi])`, buffer.go:254-268. -/
def memPuts (E : Env) (m : Mem) (lo hi : Int) : HM Mem := do
  let _ ← memSlice m lo hi
  let s ← m.run (refreshColor E m.st)
  let m := { m with st := s }
  let cs ← memSlice m lo hi
  let (m, color) ← memPutsLoop cs (-1#64) m
  return if color ≠ E.coloring.defaultColor then { m with st := m.st.emit (.sgr E.coloring.defaultColor) } else m

/-- `getView2`, buffer.go:96-100: `v[:x]` may reach up to the capacity. -/
def memGetView2 (E : Env) (m : Mem) : HM (Nat × Int) := do
  let (n, w) ← m.run (getView E m.st)
  let _ ← memSlice m m.st.viewStart m.st.cursor
  return (n, w)

/-- `repaintWithoutUpdateSuffix`, repaints.go:62-80. -/
def memRepaintNoSuffix (E : Env) (m : Mem) : HM Mem := do
  let (n, w) ← memGetView2 E m
  let m := { m with st := gotoHead m.st }
  let m ← memPuts E m m.st.viewStart (m.st.viewStart + n)
  let m ← (if E.predictColor.1 ≠ [] ∧ m.st.suffixList.length > 0 then do
      let m := { m with st := m.st.emit (.lit E.predictColor.1) }
      let s ← m.run (suffixLoop E.cfg m.st.viewWidth (m.st.visibleSuffix E) w m.st)
      return { m with st := s.emit (.lit E.predictColor.2) }
    else return m)
  let m := { m with st := gotoHead (eraseline m.st) }
  memPuts E m m.st.viewStart m.st.cursor

/-- `repaint`, repaints.go:57-60. -/
def memRepaint (E : Env) (m : Mem) : HM Mem := memRepaintNoSuffix E { m with st := updateSuffix E m.st }

/-- `ReplaceAndRepaint`, repaints.go:89-98. -/
def memReplaceAndRepaint (E : Env) (G : Grow) (m : Mem) (pos : Int) (str : Bytes) : HM Mem := do
  let (m, _) ← memDeleteCells E m pos (m.st.cursor - pos)
  let (m, ins) ← memInsertString E G m pos str
  let m := { m with st := resetViewStart E (joinUndo { m.st with cursor := pos + ins.length }) }
  memRepaint E m

/-- `InsertAndRepaint`, repaints.go:47-49. -/
def memInsertAndRepaint (E : Env) (G : Grow) (m : Mem) (str : Bytes) : HM Mem :=
  memReplaceAndRepaint E G m m.st.cursor str

/-- `RepaintAfterPrompt`, repaints.go:101-104. -/
def memRepaintAfterPrompt (E : Env) (m : Mem) : HM Mem := memRepaint E { m with st := resetViewStart E m.st }

/-- `RepaintAll`, repaints.go:107-111. -/
def memRepaintAll (E : Env) (m : Mem) : HM Mem :=
  let (w, s) := callPromptWriter E (m.st.emit .flush)
  memRepaint E { m with st := { s with topColumn := w } }

/-- `RepaintLastLine`, repaints.go:115-129. -/
def memRepaintLastLine (E : Env) (m : Mem) : HM Mem :=
  let s := m.st.emit .flush
  match E.prompt with
  | none => memRepaint E { m with st := s.emit (.lit [0x0D, 0x3E, 0x20]) }
  | some p =>
    let prompt := (0x0D :: p s.promptN).map (fun b => if b = 0x0A then 0x0D else b)
    memRepaint E { m with st := { s with promptN := s.promptN + 1 }.emit (.lit prompt) }

/-! ## gommand.go -/

/-- `cmdInterrupt`, gommand.go:56-62. -/
def memInterrupt (m : Mem) : HM (Mem × Result) :=
  let m := memCut m 0
  return ({ m with st := { m.st with cursor := 0, viewStart := 0, undoes := [] } }, .intr)

/-- `cmdBeginningOfLine`, gommand.go:67-72. -/
def memBeginningOfLine (E : Env) (m : Mem) : HM (Mem × Result) := do
  let m ← memRepaint E { m with st := { m.st with cursor := 0, viewStart := 0 } }
  return (m, .cont)

/-- `cmdBackwardChar`, gommand.go:77-87. -/
def memBackwardChar (E : Env) (m : Mem) : HM (Mem × Result) := do
  if m.st.cursor ≤ 0 then return (m, .cont)
  let c := m.st.cursor - 1
  let m ← memRepaint E { m with st := { m.st with
    cursor := c, viewStart := if c < m.st.viewStart then m.st.viewStart - 1 else m.st.viewStart } }
  return (m, .cont)

/-- `cmdEndOfLine`, gommand.go:92-117. -/
def memEndOfLine (E : Env) (m : Mem) : HM (Mem × Result) := do
  let allength ← memWidth E m m.st.viewStart m.st.len
  if allength < m.st.viewWidth then
    let m ← memPuts E m m.st.cursor m.st.len
    return ({ m with st := eraseline { m.st with cursor := m.st.len } }, .cont)
  else
    let m := { m with st := gotoHead m.st }
    let last ← m.run (index m.st m.st.buf (m.st.len - 1))
    let vs := eolLoop E.cfg m.st.buf m.st.viewWidth (m.st.len - 1).toNat (last.moji.width E.cfg)
    let m := { m with st := { m.st with viewStart := vs } }
    let m ← memPuts E m m.st.viewStart m.st.len
    return ({ m with st := eraseline { m.st with cursor := m.st.len } }, .cont)

/-- `cmdForwardChar`, gommand.go:122-149. -/
def memForwardChar (E : Env) (G : Grow) (m : Mem) : HM (Mem × Result) := do
  if m.st.cursor ≥ m.st.len then
    if m.st.suffixList.length > 0 then
      let m ← memInsertAndRepaint E G m (m.st.suffixList.flatMap Moji.write)
      return (m, .cont)
    else return (m, .cont)
  else
    let w ← memWidth E m m.st.viewStart (m.st.cursor + 1)
    if w < m.st.viewWidth then
      let m ← memPuts E m m.st.cursor (m.st.cursor + 1)
      return ({ m with st := { m.st with cursor := m.st.cursor + 1 } }, .cont)
    else
      let m := { m with st := gotoHead m.st }
      let c ← m.run (index m.st m.st.buf m.st.cursor)
      let v ← m.run (index m.st m.st.buf m.st.viewStart)
      let vs := if c.moji.width E.cfg > v.moji.width E.cfg then m.st.viewStart + 1 else m.st.viewStart
      let m := { m with st := { m.st with viewStart := vs + 1 } }
      let m ← memPuts E m m.st.viewStart (m.st.cursor + 1)
      let m := { m with st := eraseline m.st }
      return ({ m with st := { m.st with cursor := m.st.cursor + 1 } }, .cont)

/-- `cmdBackwardDeleteChar`, gommand.go:154-164. -/
def memBackwardDeleteChar (E : Env) (m : Mem) : HM (Mem × Result) := do
  if m.st.cursor > 0 then
    let m := { m with st := { m.st with cursor := m.st.cursor - 1 } }
    let (m, _) ← memDeleteCells E m m.st.cursor 1
    let m := if m.st.cursor < m.st.viewStart then { m with st := { m.st with viewStart := m.st.cursor } } else m
    let m ← memRepaint E m
    return (m, .cont)
  else return (m, .cont)

/-- `cmdDeleteChar`, gommand.go:169-173. -/
def memDeleteChar (E : Env) (m : Mem) : HM (Mem × Result) := do
  let (m, _) ← memDeleteCells E m m.st.cursor 1
  let m ← memRepaint E m
  return (m, .cont)

/-- `cmdDeleteOrAbort`, gommand.go:178-183. -/
def memDeleteOrAbort (E : Env) (m : Mem) : HM (Mem × Result) :=
  if m.st.len > 0 then memDeleteChar E m else return (m, .abort)

/-- The insertion part of `SelfInserter.Call`, gommand.go:217-228. -/
def memSelfInsertTail (E : Env) (G : Grow) (m : Mem) (keys : Bytes) : HM (Mem × Result) := do
  let (m, mojis) ← memInsertString E G m m.st.cursor keys
  let w ← memWidth E m m.st.viewStart m.st.cursor
  let w1 := cellsWidth E.cfg mojis
  let m := { m with st := { m.st with cursor := m.st.cursor + mojis.length } }
  let m := if w + w1 ≥ m.st.viewWidth then { m with st := resetViewStart E m.st } else m
  let m ← memRepaint E m
  return (m, .cont)

/-- `(SelfInserter).Call`, gommand.go:198-229. -/
def memSelfInsert (E : Env) (G : Grow) (key : Bytes) (m : Mem) : HM (Mem × Result) := do
  let keys := stripAlt key
  if areZeroWidthJoin E.cfg keys && decide (m.st.cursor > 0) then
    let c ← m.run (index m.st m.st.buf (m.st.cursor - 1))
    memBackwardDeleteChar E { m with st := { m.st with pending := c.moji.write ++ keys } }
  else if (areVariationSelectorLike E.cfg keys || areEmojiModifier E.cfg keys)
      && decide (m.st.cursor > 0) then
    let c ← m.run (index m.st m.st.buf (m.st.cursor - 1))
    let (m, _) ← memBackwardDeleteChar E m
    memSelfInsertTail E G m (c.moji.write ++ keys)
  else if m.st.pending.length > 0 then
    memSelfInsertTail E G { m with st := { m.st with pending := [] } } (m.st.pending ++ keys)
  else
    memSelfInsertTail E G m keys

/-- `cmdKillLine`, gommand.go:234-245.  `Buffer[:Cursor]` (line 243) is not beyond the length because
`Buffer[Cursor:]` (line 240) was in range. -/
def memKillLine (E : Env) (m : Mem) : HM (Mem × Result) := do
  let t ← memSub m m.st.cursor m.st.len
  let m := { m with st := eraseline { m.st with clip := E.clipSet m.st.clip t } }
  let tail ← memSub m m.st.cursor m.st.len
  let m := memCut { m with st := { m.st with
    undoes := { pos := m.st.cursor, del := 0, text := tail } :: m.st.undoes } } m.st.cursor.toNat
  return (m, .cont)

/-- `cmdKillWholeLine`, gommand.go:250-262. -/
def memKillWholeLine (m : Mem) : HM (Mem × Result) :=
  let s := { m.st with undoes := { pos := 0, del := 0, text := m.st.text } :: m.st.undoes }
  let m := memCut { m with st := eraseline (gotoHead s) } 0
  return ({ m with st := { m.st with cursor := 0, viewStart := 0 } }, .cont)

/-- `Buffer[Cursor-1]`, gommand.go:269, 402, with a cursor behind the end or before the line. -/
def memCheckCursor (m : Mem) : HM Unit :=
  if 0 ≤ m.st.cursor ∧ m.st.cursor ≤ m.st.len then .ok () else .error (.go .bounds, m)

/-- `cmdUnixWordRubout`, gommand.go:267-281. -/
def memUnixWordRubout (E : Env) (m : Mem) : HM (Mem × Result) := do
  let org := m.st.cursor
  memCheckCursor m
  let m := { m with st := { m.st with cursor := (skipSpacesLeft m.st.buf m.st.cursor.toNat : Nat) } }
  let new ← memWordTop E m
  let t ← memSub m new org
  let m := { m with st := { m.st with clip := E.clipSet m.st.clip t } }
  let (m, _) ← memDeleteCells E m new (org - new)
  let m := { m with st := { m.st with cursor := new } }
  let m := if new - m.st.viewStart < 2 then { m with st := resetViewStart E m.st } else m
  let m ← memRepaint E m
  return (m, .cont)

/-- `cmdUnixLineDiscard`, gommand.go:286-293. -/
def memUnixLineDiscard (E : Env) (m : Mem) : HM (Mem × Result) := do
  let t ← memSub m 0 m.st.cursor
  let m := { m with st := { m.st with clip := E.clipSet m.st.clip t } }
  let (m, _) ← memDeleteCells E m 0 m.st.cursor
  let m ← memRepaint E { m with st := { m.st with cursor := 0, viewStart := 0 } }
  return (m, .cont)

/-- `cmdClearScreen`, gommand.go:298-302. -/
def memClearScreen (E : Env) (m : Mem) : HM (Mem × Result) := do
  let s := m.st.emit (.lit [0x1B, 0x5B, 0x31, 0x3B, 0x31, 0x48, 0x1B, 0x5B, 0x32, 0x4A])
  let m ← memRepaintAll E { m with st := s }
  return (m, .cont)

/-- `cmdRepaintOnNewline`, gommand.go:306-310. -/
def memRepaintOnNewline (E : Env) (m : Mem) : HM (Mem × Result) := do
  let m ← memRepaintAll E { m with st := m.st.emit (.lit [0x0A]) }
  return (m, .cont)

/-- `cmdQuotedInsert`, gommand.go:315-323. -/
def memQuotedInsert (E : Env) (G : Grow) (m : Mem) : HM (Mem × Result) := do
  match getKey (m.st.emit .cursorOn) with
  | (some key, s) =>
    let (m, r) ← memSelfInsert E G key { m with st := s }
    return ({ m with st := m.st.emit .cursorOff }, r)
  | (none, s) => return ({ m with st := s.emit .cursorOff }, .cont)

/-- `cmdYank`, gommand.go:328-336. -/
def memYank (E : Env) (G : Grow) (m : Mem) : HM (Mem × Result) := do
  match m.st.clip with
  | none => return (m, .cont)
  | some text =>
    let m ← memInsertAndRepaint E G m (trimRightCRLFNUL text)
    return (m, .cont)

/-- `cmdYankWithQuote`, gommand.go:341-354. -/
def memYankWithQuote (E : Env) (G : Grow) (m : Mem) : HM (Mem × Result) := do
  match m.st.clip with
  | none => return (m, .cont)
  | some text =>
    let m ← memInsertAndRepaint E G m (quoteText text)
    return (m, .cont)

/-- `cmdSwapChar`, gommand.go:359-395.  The exchange (line 385) indexes the line itself. -/
def memSwapChar (E : Env) (m : Mem) : HM (Mem × Result) := do
  if m.st.len = m.st.cursor then
    if m.st.cursor < 2 then return (m, .cont)
    let two ← memSub m (m.st.cursor - 2) m.st.cursor
    let m := { m with st := { m.st with
      undoes := { pos := m.st.cursor, del := 2, text := two } :: m.st.undoes,
      buf := swapAt m.st.buf (m.st.cursor - 2).toNat } }
    let m := { m with st := gotoHead m.st }
    let m ← memPuts E m m.st.viewStart m.st.cursor
    return (m, .cont)
  else
    if m.st.cursor < 1 then return (m, .cont)
    let two ← memSub m (m.st.cursor - 1) (m.st.cursor + 1)
    let m := { m with st := { m.st with
      undoes := { pos := m.st.cursor - 1, del := 2, text := two } :: m.st.undoes } }
    let w ← memWidth E m m.st.viewStart (m.st.cursor + 1)
    let _ ← m.run (index m.st m.st.buf m.st.cursor)
    let m := { m with st := { m.st with buf := swapAt m.st.buf (m.st.cursor - 1).toNat } }
    let m := { m with st := gotoHead m.st }
    let m := if w ≥ m.st.viewWidth then { m with st := { m.st with viewStart := m.st.viewStart + 1 } } else m
    let m := { m with st := { m.st with cursor := m.st.cursor + 1 } }
    let m ← memPuts E m m.st.viewStart m.st.cursor
    return (m, .cont)

/-- `cmdBackwardWord`, gommand.go:400-414. -/
def memBackwardWord (E : Env) (m : Mem) : HM (Mem × Result) := do
  memCheckCursor m
  let newPos : Int := (skipWordLeft m.st.buf (skipSpacesLeft m.st.buf m.st.cursor.toNat) : Nat)
  let m := if newPos < m.st.viewStart then { m with st := { m.st with viewStart := newPos } } else m
  let m ← memRepaint E { m with st := { m.st with cursor := newPos } }
  return (m, .cont)

/-- `cmdForwardWord`, gommand.go:419-437: with a cursor behind the end the loops are not entered. -/
def memForwardWord (E : Env) (m : Mem) : HM (Mem × Result) := do
  if m.st.cursor < 0 then .error (.go .bounds, m)
  let newPos : Int := (forwardWordPos m.st.buf m.st.cursor.toNat : Nat)
  let w ← memWidth E m m.st.viewStart newPos
  if w < m.st.viewWidth then
    let m ← memPuts E m m.st.cursor newPos
    return ({ m with st := { m.st with cursor := newPos } }, .cont)
  else
    let m ← memRepaint E { m with st := resetViewStart E { m.st with cursor := newPos } }
    return (m, .cont)

/-- `cmdUndo`, gommand.go:442-464. -/
def memUndo (E : Env) (G : Grow) (m : Mem) : HM (Mem × Result) := do
  match m.st.undoes with
  | [] => return ({ m with st := m.st.emit (.lit [0x07]) }, .cont)
  | u :: rest =>
    let m := { m with st := gotoHead { m.st with undoes := rest } }
    let m ← (if u.del > 0 then memDelete m u.pos u.del else pure m)
    let m ← (if u.text ≠ [] then do
        let cells := mojis2cells (stringToMoji E.cfg u.text)
        let m ← memInsert G m u.pos cells
        pure { m with st := { m.st with cursor := u.pos + cells.length } }
      else pure { m with st := { m.st with cursor := u.pos } })
    let m ← memRepaint E { m with st := resetViewStart E m.st }
    return (m, .cont)

/-! ## history.go and isearch.go -/

/-- The common tail of the two history commands, history.go:59-66 and 81-88. -/
def memShowHistory (E : Env) (G : Grow) (m : Mem) : HM (Mem × Result) := do
  let (m, _) ← memKillWholeLine m
  let t ← m.run (getHistory E m.st)
  if t ≠ [] then
    let (m, _) ← memInsertString E G m 0 t
    let m := { m with st := { m.st with viewStart := 0, cursor := 0 } }
    let (m, _) ← memEndOfLine E m
    return (m, .cont)
  else return (m, .cont)

/-- `cmdPreviousHistory`, history.go:47-67. -/
def memPreviousHistory (E : Env) (G : Grow) (m : Mem) : HM (Mem × Result) := do
  if E.histLen ≤ 0 then return (m, .cont)
  if m.st.histPtr ≤ 0 ∧ E.historyCycling = false then return (m, .cont)
  let m := if m.st.histPtr ≤ 0 then { m with st := { m.st with histPtr := E.histLen + 1 } } else m
  let s ← m.run (saveModifiedHistory E m.st)
  memShowHistory E G { m with st := { s with histPtr := s.histPtr - 1 } }

/-- `cmdNextHistory`, history.go:72-89. -/
def memNextHistory (E : Env) (G : Grow) (m : Mem) : HM (Mem × Result) := do
  if E.histLen ≤ 0 then return (m, .cont)
  if m.st.histPtr + 1 > E.histLen then return (m, .cont)
  let s ← m.run (saveModifiedHistory E m.st)
  memShowHistory E G { m with st := { s with histPtr := s.histPtr + 1 } }

/-- The main loop of `cmdISearchBackward`, isearch.go:40-130. -/
def memIsearchLoop (E : Env) (G : Grow) : Nat → ISt → Mem → HM (Mem × Result)
  | 0, _, m => .error (.go .diverge, m)
  | fuel + 1, it, m => do
    let s ← m.run (drawLoop E.cfg m.st.viewWidth (stringToMoji E.cfg (isearchDraw it)) 0 m.st)
    match getKey ((eraseline s).emit .cursorOn) with
    | (none, s) => return ({ m with st := s }, .cont)
    | (some key, s) =>
      let m := { m with st := gotoHead (s.emit .cursorOff) }
      if key = [0x08] ∨ key = [0x7F] then
        let it := { it with search := chopLast it.search }
        memIsearchLoop E G fuel (isearchUpdate E it E.history.length) m
      else if key = [0x0D] then
        let m := memCut { m with st := { m.st with
          viewStart := 0, undoes := { pos := 0, del := 0, text := m.st.text } :: m.st.undoes } } 0
        let m ← memReplaceAndRepaint E G { m with st := { m.st with cursor := 0 } } 0 it.found
        return (m, .cont)
      else if key = [0x03] ∨ key = [0x07] ∨ key = [0x1B] then
        let (n, _) ← memGetView2 E m
        let m ← memPuts E m m.st.viewStart (m.st.viewStart + n)
        let m := { m with st := gotoHead (eraseline m.st) }
        let m ← memPuts E m m.st.viewStart m.st.cursor
        return (m, .cont)
      else if key = [0x12] then
        let it ← m.run (isearchPrev E m.st it (E.history.length + 2) (it.lastPos - 1))
        memIsearchLoop E G fuel it m
      else if key = [0x13] then
        let it ← m.run (isearchNext E m.st it (E.history.length + 2) (it.lastPos + 1))
        memIsearchLoop E G fuel it m
      else
        let charcode := (decodeRune key).1
        if isControlRune charcode then memIsearchLoop E G fuel it m
        else
          let it := { it with search := it.search ++ encodeRune charcode }
          memIsearchLoop E G fuel (isearchUpdate E it E.history.length) m

/-- `cmdISearchBackward`, isearch.go:19-131. -/
def memIsearch (E : Env) (G : Grow) (m : Mem) : HM (Mem × Result) :=
  memIsearchLoop E G (m.st.input.length + 1) { lastPos := E.histLen - 1 } { m with st := gotoHead m.st }

/-! ## completion/main.go -/

/-- `complete`, completion/main.go:137-175. -/
def memComplete (U : Uni) (E : Env) (G : Grow) (K : Completer) (postfix_ : Bytes) (m : Mem) :
    HM (Mem × List Bytes) := do
  let quotes := K.enclosures
  let del := K.delimiters
  let (fields, lastWordStart) ← m.run (split quotes del m.st)
  match fields.getLast? with
  | none => return (m, [])
  | some field =>
    let (list, baselist) := K.list fields
    let baselist := if baselist.length = 0 then list else baselist
    let (list, baselist) ← m.run (removeUnmatches U m.st field list baselist)
    match list with
    | [] => return (m, [])
    | [str] =>
      if equalFold U field str then return ({ m with st := m.st.emit (.lit [0x07]) }, [])
      else
        let str :=
          match quotes with
          | q :: _ =>
            if del.length > 0 && containsAny str (splitSpaces ++ del) then
              encodeRune q.toNat ++ str ++ encodeRune q.toNat
            else str
          | [] => str
        let m ← memReplaceAndRepaint E G m lastWordStart (str ++ postfix_)
        return (m, [])
    | _ =>
      match commonPrefix U list with
      | none => .error (.go .bounds, m)
      | some prefix_ =>
        if equalFold U field prefix_ then return ({ m with st := m.st.emit (.lit [0x07]) }, baselist)
        else
          let p :=
            match quotes with
            | q :: _ =>
              if hasToInsertQuotation list (splitSpaces ++ del) then encodeRune q.toNat ++ prefix_
              else prefix_
            | [] => prefix_
          let m ← memReplaceAndRepaint E G m lastWordStart p
          return (m, [])

/-- `(CmdCompletion).Call` and `(CmdCompletionOrList).Call`, completion/main.go:186-189, 200-208. -/
def memCompletion (E : Env) (G : Grow) (P : Completing) (m : Mem) : HM (Mem × Result) := do
  let (m, list) ← memComplete P.uni E G P.completer P.postfix_ m
  match P.box with
  | none => return (m, .cont)
  | some box =>
    if list.length > 0 then
      let m ← memRepaintAll E { m with st := (m.st.emit (.lit [0x0A])).emit (.lit (box list)) }
      return (m, .cont)
    else return (m, .cont)

/-! ## main.go -/

/-- `(Command).Call`. -/
def Cmd.memCall (E : Env) (G : Grow) : Cmd → Mem → HM (Mem × Result)
  | .acceptLine, m => return (m, .enter)
  | .interrupt, m => memInterrupt m
  | .beginningOfLine, m => memBeginningOfLine E m
  | .backwardChar, m => memBackwardChar E m
  | .endOfLine, m => memEndOfLine E m
  | .forwardChar, m => memForwardChar E G m
  | .backwardDeleteChar, m => memBackwardDeleteChar E m
  | .deleteChar, m => memDeleteChar E m
  | .deleteOrAbort, m => memDeleteOrAbort E m
  | .killLine, m => memKillLine E m
  | .killWholeLine, m => memKillWholeLine m
  | .unixWordRubout, m => memUnixWordRubout E m
  | .unixLineDiscard, m => memUnixLineDiscard E m
  | .clearScreen, m => memClearScreen E m
  | .repaintOnNewline, m => memRepaintOnNewline E m
  | .quotedInsert, m => memQuotedInsert E G m
  | .yank, m => memYank E G m
  | .yankWithQuote, m => memYankWithQuote E G m
  | .swapChar, m => memSwapChar E m
  | .backwardWord, m => memBackwardWord E m
  | .forwardWord, m => memForwardWord E m
  | .undo, m => memUndo E G m
  | .previousHistory, m => memPreviousHistory E G m
  | .nextHistory, m => memNextHistory E G m
  | .isearchBackward, m => memIsearch E G m
  | .selfInsert k, m => memSelfInsert E G k m
  | .completion P, m => memCompletion E G P m
  | .custom f, m => do
    let (s, r) ← m.run (f m.st)
    return ({ m with st := s }, r)

/-- main.go:168-210; `make([]Cell, 0, 20)` is line 170. -/
def memStart (E : Env) (G : Grow) (w : World) : HM Mem := do
  let (m, _) ← memInsertString E G { st := promptSt E w, spare := List.replicate 20 none } 0 E.default
  let m := if m.st.cursor > m.st.len then { m with st := { m.st with cursor := m.st.len } } else m
  let m ← memRepaintAfterPrompt E m
  return { m with st := m.st.emit .cursorOn }

/-- The closure `onResize`, main.go:175-181. -/
def memOnResize (E : Env) (m : Mem) (w : Int) : HM Mem :=
  memRepaintLastLine E { m with st := resetViewStart E { m.st with termWidth := w } }

/-- main.go:226-247. -/
def memFinish (E : Env) (m : Mem) (rc : Result) : HM (Mem × RLRes) := do
  let m ← (match m.st.suffix with
    | some _ => memRepaintNoSuffix E { m with st := { m.st with suffix := none } }
    | none => pure m)
  let s := match E.lineFeed with
    | some f => m.st.emit (.lit (f rc))
    | none => m.st.emit (.lit [0x0A])
  let s := s.emit .flush
  let text := s.text
  let err := match rc with
    | .enter => RLErr.nil
    | .intr => .ctrlC
    | _ => .eof
  return ({ m with st := deferred s }, { text := text, err := err })

/-- Executing one command, main.go:216-248. -/
def memExec (E : Env) (G : Grow) (cmd : Cmd) (m : Mem) : HM (Mem × Option RLRes) := do
  let (m, rc) ← Cmd.memCall E G cmd { m with st := m.st.emit .cursorOff }
  let m := { m with st := m.st.emit .cursorOn }
  match rc with
  | .cont => return (m, none)
  | rc =>
    let (m, r) ← memFinish E m rc
    return (m, some r)

/-- One step of the session. -/
def memStep (E : Env) (G : Grow) (m : Mem) : HM (Mem × Option RLRes) :=
  match m.st.input with
  | [] => return ({ m with st := deferred (m.st.emit .await) }, some { text := [], err := .tty [] })
  | .err e :: rest =>
    return ({ m with st := deferred { m.st.emit .await with input := rest } }, some { text := [], err := .tty e })
  | .resize w :: rest => do
    let m ← memOnResize E { m with st := { m.st with input := rest } } w
    return (m, none)
  | .key k :: rest => memExec E G (lookupCommand E k) { m with st := { m.st.emit .await with input := rest } }

/-- The loop of `ReadLine`, main.go:211-249. -/
def memLoop (E : Env) (G : Grow) : Nat → Mem → HM (Mem × RLRes)
  | 0, m => .error (.go .diverge, m)
  | fuel + 1, m => do
    match ← memStep E G m with
    | (m, some r) => return (m, r)
    | (m, none) => memLoop E G fuel m

/-- `(*Editor).ReadLine`, main.go:161-250, with the memory of the line. -/
def memReadLine (E : Env) (G : Grow) (w : World) : HM (Mem × RLRes) := do
  let m ← memStart E G w
  memLoop E G (m.st.input.length + 1) m

end Readline
