import Verif.Model.Utf8
/-!
# Reading keys from the terminal

Models getkey.go, tty8.go (the key queue) and `GetKey` of tty10/main.go, and auto/main.go.
-/
namespace Readline

/-- What an `XTty` (getkey.go:9-13) delivers: a rune together with the answers of
`Buffered()` between this rune and the next (`raw` is asked in `GetRawKey`, getkey.go:50,
`keys` in `GetKeys`, getkey.go:71), or an error of `ReadRune`.  The end of the list is
end of file. `Raw()` always succeeds (simplification). -/
inductive TtyEv where
  | rune (r : Rune) (raw keys : Bool)
  | err (e : Bytes)
deriving Repr, DecidableEq

/-- Result of reading: the value, or an error, and the rest of the stream. -/
inductive Rd (α : Type) where
  | ok (a : α) (rest : List TtyEv)
  | err (e : Bytes) (rest : List TtyEv)
deriving Repr, DecidableEq

/-- `utf16.IsSurrogate`. -/
def isSurrogate (r : Rune) : Bool := decide (0xD800 ≤ r) && decide (r < 0xE000)

/-- `utf16.DecodeRune`. -/
def utf16Decode (r1 r2 : Rune) : Rune :=
  if 0xD800 ≤ r1 ∧ r1 < 0xDC00 ∧ 0xDC00 ≤ r2 ∧ r2 < 0xE000 then
    (r1 - 0xD800) * 1024 + (r2 - 0xDC00) + 0x10000
  else runeError

/-- The loop of `GetRawKey`, getkey.go:31-53.  `sur = 0` means no pending surrogate.  The
answer of `Buffered()` in `GetKeys` after the key is returned with the key. -/
def getRawKeyLoop : List TtyEv → Bytes → Bool → Rune → Rd (Bytes × Bool)
  | [], _, _, _ => .err [] []
  | .err e :: rest, _, _, _ => .err e rest
  | .rune r raw keys :: rest, buffer, escape, sur =>
    if r = 0 then getRawKeyLoop rest buffer escape sur
    else if ¬ sur > 0 ∧ isSurrogate r then getRawKeyLoop rest buffer escape r
    else
      let r := if sur > 0 then utf16Decode sur r else r
      let buffer := buffer ++ encodeRune r
      let escape := escape || r == 0x1B
      if !(escape && raw) && decide (buffer.length > 0) then .ok (buffer, keys) rest
      else getRawKeyLoop rest buffer escape 0

/-- `GetRawKey`, getkey.go:27-54 (and `GetKey`, getkey.go:17-25). -/
def getRawKey (s : List TtyEv) : Rd (Bytes × Bool) := getRawKeyLoop s [] false 0

/-- The loop of `GetKeys`, getkey.go:65-74.  The fuel (length of the stream) suffices since
each key takes at least one rune; running out of it is reported as `none`. -/
def getKeysLoop : Nat → List TtyEv → List Bytes → Option (Rd (List Bytes))
  | 0, _, _ => none
  | fuel + 1, s, keys =>
    match getRawKey s with
    | .err e rest => some (.err e rest)
    | .ok (k, more) rest =>
      if !more then some (.ok (keys ++ [k]) rest) else getKeysLoop fuel rest (keys ++ [k])

/-- `GetKeys`, getkey.go:56-75. -/
def getKeys (s : List TtyEv) : Option (Rd (List Bytes)) := getKeysLoop (s.length + 1) s []

/-- `_Tty`, tty8.go:9-12, and the terminal behind it. -/
structure Tty8 where
  buf : List Bytes := []
  stream : List TtyEv
deriving Repr, DecidableEq

/-- `(*_Tty).GetKey`, tty8.go:40-51.  `Except.error` is the returned error. -/
def Tty8.getKey (t : Tty8) : Option (Except Bytes Bytes × Tty8) :=
  match t.buf with
  | k :: rest => some (.ok k, { t with buf := rest })
  | [] =>
    match getKeys t.stream with
    | none => none
    | some (.err e rest) => some (.error e, { buf := [], stream := rest })
    | some (.ok [] rest) => some (.ok [], { buf := [], stream := rest })
    | some (.ok (k :: ks) rest) => some (.ok k, { buf := ks, stream := rest })

/-- tty10 `Tty`, tty10/main.go:11-15: the byte buffer and what standard input will deliver,
one element per `Read` (at most 1024 bytes each, tty10/main.go:54) or an error. -/
structure Tty10 where
  buf : Bytes := []
  chunks : List (Except Bytes Bytes)

/-- `(*Tty).GetKey`, tty10/main.go:62-80, with `getKey`, tty10/main.go:46-60 inlined (end of
the list = end of file error). -/
def Tty10.getKey (t : Tty10) : Except Bytes Bytes × Tty10 :=
  let take (buf : Bytes) (chunks : List (Except Bytes Bytes)) : Except Bytes Bytes × Tty10 :=
    let d := decodeRune buf
    if d.1 = 0x1B then (.ok buf, { buf := [], chunks := chunks })
    else (.ok (buf.take d.2), { buf := buf.drop d.2, chunks := chunks })
  if t.buf.length > 0 then take t.buf t.chunks
  else
    match t.chunks with
    | [] => (.error [], { buf := [], chunks := [] })
    | .error e :: rest => (.error e, { buf := [], chunks := rest })
    | .ok [] :: rest => (.ok [], { buf := [], chunks := rest })
    | .ok (b :: c) :: rest => take (b :: c) rest

/-- `(*Pilot).GetKey`, auto/main.go:11-18. -/
def pilotGetKey (text : List Bytes) : Bytes × List Bytes :=
  match text with
  | [] => ([0x0D], [])
  | k :: rest => (k, rest)

end Readline
