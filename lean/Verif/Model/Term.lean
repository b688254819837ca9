import Verif.Model.GetKey
/-!
# The terminal behind the Ttys: its mode, and the signals about its size

Models getkey.go:17-75, tty8.go:20-51 and tty10/main.go:46-80 once more, this time with the calls of
`Raw()`, `MakeRaw` and `Restore`, and their failures.
-/
namespace Readline

/-- A terminal: whether it is in raw mode, whether the next attempts to set raw mode fail (`none`:
success; behind the list: success), what will be typed, and in which mode it was at each read. -/
structure Term where
  raw : Bool
  attempts : List (Option Bytes) := []
  stream : List TtyEv
  reads : List Bool := []
deriving Repr, DecidableEq

/-- `Raw()` of an `XTty`, getkey.go:10: an error, or the mode the returned function goes back to. -/
def Term.setRaw (t : Term) : Except Bytes Bool × Term :=
  match t.attempts with
  | some e :: rest => (.error e, { t with attempts := rest })
  | none :: rest => (.ok t.raw, { t with raw := true, attempts := rest })
  | [] => (.ok t.raw, { t with raw := true })

/-- The function returned by `Raw()`. -/
def Term.restore (t : Term) (old : Bool) : Term := { t with raw := old }

/-- `ReadRune()`, getkey.go:11. -/
def Term.readRune (t : Term) : Option TtyEv × Term :=
  (t.stream.head?, { t with stream := t.stream.tail, reads := t.reads ++ [t.raw] })

/-- The loop of `GetRawKey`, getkey.go:31-53, on a terminal. -/
def Term.rawKeyLoop : Nat → Term → Bytes → Bool → Rune → Except Bytes (Bytes × Bool) × Term
  | 0, t, _, _, _ => (.error [], t)
  | fuel + 1, t, buffer, escape, sur =>
    match t.readRune with
    | (none, t) => (.error [], t)
    | (some (.err e), t) => (.error e, t)
    | (some (.rune r raw keys), t) =>
      if r = 0 then rawKeyLoop fuel t buffer escape sur
      else if ¬ sur > 0 ∧ isSurrogate r then rawKeyLoop fuel t buffer escape r
      else
        let r := if sur > 0 then utf16Decode sur r else r
        let buffer := buffer ++ encodeRune r
        let escape := escape || r == 0x1B
        if !(escape && raw) && decide (buffer.length > 0) then (.ok (buffer, keys), t)
        else rawKeyLoop fuel t buffer escape 0

/-- `GetRawKey`, getkey.go:27-54. -/
def Term.getRawKey (t : Term) : Except Bytes (Bytes × Bool) × Term :=
  t.rawKeyLoop (t.stream.length + 1) [] false 0

/-- `GetKey`, getkey.go:17-25. -/
def Term.getKey (t : Term) : Except Bytes Bytes × Term :=
  match t.setRaw with
  | (.error e, t) => (.error e, t)
  | (.ok old, t) =>
    let (k, t) := t.getRawKey
    (k.map (·.1), t.restore old)

/-- The loop of `GetKeys`, getkey.go:65-74. -/
def Term.getKeysLoop : Nat → Term → List Bytes → Except Bytes (List Bytes) × Term
  | 0, t, _ => (.error [], t)
  | fuel + 1, t, keys =>
    match t.getRawKey with
    | (.error e, t) => (.error e, t)
    | (.ok (k, more), t) =>
      if !more then (.ok (keys ++ [k]), t) else getKeysLoop fuel t (keys ++ [k])

/-- `GetKeys`, getkey.go:56-75. -/
def Term.getKeys (t : Term) : Except Bytes (List Bytes) × Term :=
  match t.setRaw with
  | (.error e, t) => (.error e, t)
  | (.ok old, t) =>
    let (ks, t) := t.getKeysLoop (t.stream.length + 1) []
    (ks, t.restore old)

/-- `(*_Tty).GetKey`, tty8.go:40-51: the queue and the terminal. -/
def Term.getKey8 (t : List Bytes × Term) : Except Bytes Bytes × (List Bytes × Term) :=
  match t.1 with
  | k :: rest => (.ok k, (rest, t.2))
  | [] =>
    match t.2.getKeys with
    | (.error e, t) => (.error e, ([], t))
    | (.ok [], t) => (.ok [], ([], t))
    | (.ok (k :: ks), t) => (.ok k, (ks, t))

/-- Standard input and its mode, for tty10. -/
structure Stdin where
  raw : Bool
  attempts : List (Option Bytes) := []
  chunks : List (Except Bytes Bytes)
  reads : List Bool := []

/-- `getKey`, tty10/main.go:46-60. -/
def Stdin.getKey (t : Stdin) : Except Bytes Bytes × Stdin :=
  match t.attempts with
  | some e :: rest => (.error e, { t with attempts := rest })
  | l =>
    let old := t.raw
    let t := { t with raw := true, attempts := l.tail }
    let t' := { t with chunks := t.chunks.tail, reads := t.reads ++ [t.raw] }
    let r := match t.chunks with
      | [] => .error []
      | c :: _ => c
    (r, { t' with raw := old })

/-- `(*Tty).GetKey`, tty10/main.go:62-80: the byte buffer and standard input. -/
def Stdin.getKey10 (t : Bytes × Stdin) : Except Bytes Bytes × (Bytes × Stdin) :=
  let take (buf : Bytes) (t : Stdin) : Except Bytes Bytes × (Bytes × Stdin) :=
    let d := decodeRune buf
    if d.1 = 0x1B then (.ok buf, ([], t)) else (.ok (buf.take d.2), (buf.drop d.2, t))
  if t.1.length > 0 then take t.1 t.2
  else
    match t.2.getKey with
    | (.error e, t) => (.error e, ([], t))
    | (.ok [], t) => (.ok [], ([], t))
    | (.ok (b :: c), t) => take (b :: c) t

/-- The goroutine started by `(*_Tty).Open`, tty8.go:25-36: the calls of `onResize`, given the last
known width and the widths that are signalled. -/
def watch8 (last : Int) : List Int → List Int
  | [] => []
  | w :: ws => if last ≠ w then w :: watch8 w ws else watch8 last ws

/-- The goroutine started by `(*Tty).Open` of tty10, tty10/main.go:26-39: at each tick `Size` gives a
width or an error. -/
def watch10 (ticks : List (Option Int)) : List Int := ticks.filterMap id

end Readline
