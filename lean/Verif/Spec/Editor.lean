import Verif.Spec.Line
import Verif.Spec.Completion
import Verif.Model.ReadLine
/-!
# The editor without a screen

An editor state and editing commands that know nothing about columns, widths, scrolling,
colours, prompts and output.  The commands of the model refine these functions
(`Proof/Refine.lean`), so whatever is proved about them holds for the editor as long as it
does not panic.
-/
namespace Readline

/-- The settings that may influence the text. -/
structure Logic where
  cfg : Cfg
  history : List Bytes
  historyCycling : Bool
  /-- is `PredictColor` set -/
  predictOn : Bool
  predict : Bytes → Bytes
  default : Bytes
  delimiters : List Rune
  toUpper : Bytes → Bytes
  clipSet : Option Bytes → Bytes → Option Bytes
  keyMap : KeyMap
  globalKeyMap : KeyMap

/-- The settings of an editor that may influence the text. -/
def Env.logic (E : Env) : Logic where
  cfg := E.cfg
  history := E.history
  historyCycling := E.historyCycling
  predictOn := decide (E.predictColor.1 ≠ [])
  predict := E.predict
  default := E.default
  delimiters := E.delimiters
  toUpper := E.toUpper
  clipSet := E.clipSet
  keyMap := E.keyMap
  globalKeyMap := E.globalKeyMap

/-- The state of the editor without a screen. -/
structure Ed where
  line : List Moji
  cursor : Int
  suffix : Option (List Moji)
  histPtr : Int
  undoes : List Undo
  pending : Bytes
  modHist : Int → Option Bytes
  clip : Option Bytes
  input : List Ev

/-- Forget the screen. -/
def St.ed (s : St) : Ed where
  line := s.line
  cursor := s.cursor
  suffix := s.suffix
  histPtr := s.histPtr
  undoes := s.undoes
  pending := s.pending
  modHist := s.modHist
  clip := s.clip
  input := s.input

namespace Ed

def text (e : Ed) : Bytes := lineText e.line
def len (e : Ed) : Int := e.line.length
def suffixList (e : Ed) : List Moji := e.suffix.getD []

/-- The prediction is computed anew. -/
def predict (L : Logic) (e : Ed) : Ed :=
  if L.predictOn = false then e
  else if e.line.length = 0 then { e with suffix := none }
  else { e with suffix := some (stringToMoji L.cfg (L.predict e.text)) }

/-- Insert the units of `t` at `pos`. -/
def insert (L : Logic) (e : Ed) (pos : Int) (t : Bytes) : Ed :=
  { e with line := e.line.take pos.toNat ++ segs L.cfg t ++ e.line.drop pos.toNat
           undoes := { pos := pos, del := (segs L.cfg t).length, text := [] } :: e.undoes }

/-- Delete `n` units at `pos`. -/
def delete (e : Ed) (pos n : Int) : Ed :=
  if n ≤ 0 ∨ e.len < pos + n then e
  else
    { e with line := e.line.take pos.toNat ++ e.line.drop (pos.toNat + n.toNat)
             undoes := { pos := pos, del := 0
                         text := lineText ((e.line.drop pos.toNat).take n.toNat) } :: e.undoes }

/-- Join the last two undo entries if possible. -/
def joinUndoes : List Undo → List Undo
  | u2 :: u1 :: rest =>
    if u1.pos ≠ u2.pos then u2 :: u1 :: rest
    else if u1.text ≠ [] ∧ u2.text ≠ [] then u2 :: u1 :: rest
    else if u1.del ≠ 0 ∧ u2.del ≠ 0 then u2 :: u1 :: rest
    else { pos := u1.pos
           text := if u1.text = [] then u2.text else u1.text
           del := if u1.del = 0 then u2.del else u1.del } :: rest
  | us => us

/-- `ReplaceAndRepaint` -/
def replace (L : Logic) (e : Ed) (pos : Int) (t : Bytes) : Ed :=
  let e := (e.delete pos (e.cursor - pos)).insert L pos t
  predict L { e with cursor := pos + (segs L.cfg t).length, undoes := joinUndoes e.undoes }

/-- `BACKWARD_DELETE_CHAR` -/
def backspace (L : Logic) (e : Ed) : Ed :=
  if e.cursor > 0 then
    predict L (delete { e with cursor := e.cursor - 1 } (e.cursor - 1) 1)
  else e

def typeTail (L : Logic) (e : Ed) (t : Bytes) : Ed :=
  let e' := e.insert L e.cursor t
  predict L { e' with cursor := e.cursor + (segs L.cfg t).length }

/-- a self-inserting key -/
def type (L : Logic) (e : Ed) (key : Bytes) : Ed :=
  let keys := stripAlt key
  let left := (e.line[(e.cursor - 1).toNat]?).elim [] Moji.write
  if areZeroWidthJoin L.cfg keys && decide (e.cursor > 0) then
    backspace L { e with pending := left ++ keys }
  else if (areVariationSelectorLike L.cfg keys || areEmojiModifier L.cfg keys)
      && decide (e.cursor > 0) then
    typeTail L (backspace L e) (left ++ keys)
  else if e.pending.length > 0 then
    typeTail L { e with pending := [] } (e.pending ++ keys)
  else typeTail L e keys

/-- position after the spaces left of `n` are skipped -/
def skipSpaces (l : List Moji) (n : Nat) : Nat := ((l.take n).reverse.dropWhile Moji.isSpace).length

/-- position after the non-spaces left of `n` are skipped -/
def skipWord (l : List Moji) (n : Nat) : Nat :=
  ((l.take n).reverse.dropWhile (fun m => !m.isSpace)).length

/-- start of the word before position `n` -/
def wordTop (L : Logic) (l : List Moji) (n : Int) : Int :=
  let t := wordTopLoop L.delimiters (mojis2cells (l.take n.toNat)) 0 (-1) 0
  if t < 0 then n else t

def forwardPos (l : List Moji) (n : Nat) : Nat :=
  l.length - (((l.drop n).dropWhile (fun m => !m.isSpace)).dropWhile Moji.isSpace).length

/-- `UNIX_WORD_RUBOUT` -/
def wordRubout (L : Logic) (e : Ed) : Ed :=
  let c : Int := skipSpaces e.line e.cursor.toNat
  let new := wordTop L e.line c
  let t := lineText ((e.line.take e.cursor.toNat).drop new.toNat)
  let e' := delete { e with clip := L.clipSet e.clip t } new (e.cursor - new)
  predict L { e' with cursor := new }

/-- `KILL_LINE` -/
def killLine (L : Logic) (e : Ed) : Ed :=
  let t := lineText (e.line.drop e.cursor.toNat)
  { e with clip := L.clipSet e.clip t
           undoes := { pos := e.cursor, del := 0, text := t } :: e.undoes
           line := e.line.take e.cursor.toNat }

/-- `KILL_WHOLE_LINE` -/
def killWhole (e : Ed) : Ed :=
  { e with undoes := { pos := 0, del := 0, text := e.text } :: e.undoes, line := [], cursor := 0 }

/-- `SWAPCHAR` -/
def swap (e : Ed) : Ed :=
  if e.len = e.cursor then
    if e.cursor < 2 then e
    else
      { e with
        undoes := { pos := e.cursor, del := 2,
                    text := lineText (e.line.drop (e.cursor - 2).toNat) } :: e.undoes
        line := swapAt e.line (e.cursor - 2).toNat }
  else if e.cursor < 1 then e
  else
    { e with
      undoes := { pos := e.cursor - 1, del := 2,
                  text := lineText ((e.line.drop (e.cursor - 1).toNat).take 2) } :: e.undoes
      line := swapAt e.line (e.cursor - 1).toNat
      cursor := e.cursor + 1 }

/-- `UNDO` -/
def undo (L : Logic) (e : Ed) : Ed :=
  match e.undoes with
  | [] => e
  | u :: rest =>
    let l := if u.del > 0 then e.line.take u.pos.toNat ++ e.line.drop (u.pos.toNat + u.del)
             else e.line
    let e := { e with undoes := rest }
    predict L
      (if u.text ≠ [] then
        { e with line := l.take u.pos.toNat ++ segs L.cfg u.text ++ l.drop u.pos.toNat
                 cursor := u.pos + (segs L.cfg u.text).length }
       else { e with line := l, cursor := u.pos })

def histLen (L : Logic) : Int := L.history.length

def histAt (L : Logic) (i : Int) : Bytes := L.history.getD i.toNat []

/-- the modified entry is remembered -/
def saveHist (L : Logic) (e : Ed) : Ed :=
  if e.histPtr < histLen L ∧ histAt L e.histPtr = e.text then e
  else { e with modHist := fun i => if i = e.histPtr then some e.text else e.modHist i }

def getHist (L : Logic) (e : Ed) : Bytes :=
  match e.modHist e.histPtr with
  | some t => t
  | none => if e.histPtr < 0 ∨ e.histPtr ≥ histLen L then [] else histAt L e.histPtr

def showHist (L : Logic) (e : Ed) : Ed :=
  let e := killWhole e
  let t := getHist L e
  if t ≠ [] then
    let e := e.insert L 0 t
    { e with cursor := e.len }
  else e

def prevHist (L : Logic) (e : Ed) : Ed :=
  if histLen L ≤ 0 then e
  else if e.histPtr ≤ 0 ∧ L.historyCycling = false then e
  else
    let e := if e.histPtr ≤ 0 then { e with histPtr := histLen L + 1 } else e
    let e := saveHist L e
    showHist L { e with histPtr := e.histPtr - 1 }

def nextHist (L : Logic) (e : Ed) : Ed :=
  if histLen L ≤ 0 then e
  else if e.histPtr + 1 > histLen L then e
  else
    let e := saveHist L e
    showHist L { e with histPtr := e.histPtr + 1 }

/-- the next key, if there is one -/
def getKey (e : Ed) : Option Bytes × Ed :=
  match popKey e.input with
  | some (.key k, rest) => (some k, { e with input := rest })
  | some (_, rest) => (none, { e with input := rest })
  | none => (none, e)

def contains (L : Logic) (s t : Bytes) : Bool := containsBytes (L.toUpper t) (L.toUpper s)

/-- newest entry among the first `n` that contains the search text -/
def searchUpdate (L : Logic) (it : ISt) : Nat → ISt
  | 0 => { it with found := [] }
  | n + 1 =>
    match L.history[n]? with
    | none => { it with found := [] }
    | some line =>
      if contains L line it.search then { it with found := line, lastPos := n }
      else searchUpdate L it n

def searchPrev (L : Logic) (it : ISt) : Nat → Int → ISt
  | 0, _ => it
  | fuel + 1, i =>
    let i := if i < 0 then histLen L - 1 else i
    if i = it.lastPos then it
    else if contains L (histAt L i) it.search ∧ it.found ≠ histAt L i then
      { it with found := histAt L i, lastPos := i }
    else searchPrev L it fuel (i - 1)

def searchNext (L : Logic) (it : ISt) : Nat → Int → ISt
  | 0, _ => it
  | fuel + 1, i =>
    if i ≥ histLen L then it
    else if i = it.lastPos then it
    else if contains L (histAt L i) it.search ∧ it.found ≠ histAt L i then
      { it with found := histAt L i, lastPos := i }
    else searchNext L it fuel (i + 1)

/-- `ISEARCH_BACKWARD` -/
def searchLoop (L : Logic) : Nat → ISt → Ed → Ed
  | 0, _, e => e
  | fuel + 1, it, e =>
    match getKey e with
    | (none, e) => e
    | (some key, e) =>
      if key = [0x08] ∨ key = [0x7F] then
        searchLoop L fuel (searchUpdate L { it with search := chopLast it.search } L.history.length) e
      else if key = [0x0D] then
        replace L { e with undoes := { pos := 0, del := 0, text := e.text } :: e.undoes
                           line := [], cursor := 0 } 0 it.found
      else if key = [0x03] ∨ key = [0x07] ∨ key = [0x1B] then e
      else if key = [0x12] then
        searchLoop L fuel (searchPrev L it (L.history.length + 2) (it.lastPos - 1)) e
      else if key = [0x13] then
        searchLoop L fuel (searchNext L it (L.history.length + 2) (it.lastPos + 1)) e
      else if isControlRune (decodeRune key).1 then searchLoop L fuel it e
      else
        searchLoop L fuel (searchUpdate L
          { it with search := it.search ++ encodeRune (decodeRune key).1 } L.history.length) e

/-- The commands of the package `completion`. -/
def complete (L : Logic) (P : Completing) (e : Ed) : Ed :=
  match Spec.completionOf P.uni P.completer P.postfix_ ((e.line.take e.cursor.toNat).map Moji.write) with
  | .crash | .nothing => e
  | .bell l => if P.box.isSome && decide (l ≠ []) then predict L e else e
  | .insert pos t => replace L e pos t

/-- The built-in commands. -/
def call (L : Logic) : Cmd → Ed → Ed × Result
  | .acceptLine, e => (e, .enter)
  | .interrupt, e => ({ e with line := [], cursor := 0, undoes := [] }, .intr)
  | .beginningOfLine, e => (predict L { e with cursor := 0 }, .cont)
  | .backwardChar, e =>
    (if e.cursor ≤ 0 then e else predict L { e with cursor := e.cursor - 1 }, .cont)
  | .endOfLine, e => ({ e with cursor := e.len }, .cont)
  | .forwardChar, e =>
    (if e.cursor ≥ e.len then
      if e.suffixList.length > 0 then replace L e e.cursor (lineText e.suffixList) else e
     else { e with cursor := e.cursor + 1 }, .cont)
  | .backwardDeleteChar, e => (backspace L e, .cont)
  | .deleteChar, e => (predict L (e.delete e.cursor 1), .cont)
  | .deleteOrAbort, e =>
    if e.len > 0 then (predict L (e.delete e.cursor 1), .cont) else (e, .abort)
  | .killLine, e => (killLine L e, .cont)
  | .killWholeLine, e => (killWhole e, .cont)
  | .unixWordRubout, e => (wordRubout L e, .cont)
  | .unixLineDiscard, e =>
    let e' := delete { e with clip := L.clipSet e.clip (lineText (e.line.take e.cursor.toNat)) }
      0 e.cursor
    (predict L { e' with cursor := 0 }, .cont)
  | .clearScreen, e => (predict L e, .cont)
  | .repaintOnNewline, e => (predict L e, .cont)
  | .quotedInsert, e =>
    (match getKey e with
     | (some k, e) => type L e k
     | (none, e) => e, .cont)
  | .yank, e =>
    (match e.clip with
     | none => e
     | some t => replace L e e.cursor (trimRightCRLFNUL t), .cont)
  | .yankWithQuote, e =>
    (match e.clip with
     | none => e
     | some t => replace L e e.cursor (quoteText t), .cont)
  | .swapChar, e => (swap e, .cont)
  | .backwardWord, e =>
    (predict L { e with cursor := skipWord e.line (skipSpaces e.line e.cursor.toNat) }, .cont)
  | .forwardWord, e => ({ e with cursor := forwardPos e.line e.cursor.toNat }, .cont)
  | .undo, e => (undo L e, .cont)
  | .previousHistory, e => (prevHist L e, .cont)
  | .nextHistory, e => (nextHist L e, .cont)
  | .isearchBackward, e =>
    (searchLoop L (e.input.length + 1) { lastPos := histLen L - 1 } e, .cont)
  | .selfInsert k, e => (type L e k, .cont)
  | .completion P, e => (complete L P e, .cont)
  | .custom _, e => (e, .cont)

end Ed

end Readline
