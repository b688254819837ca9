/-!
# Go strings, runes and UTF-8

Go strings are byte sequences.  The Go code under /repo calls
`utf8.DecodeRuneInString`, `utf8.DecodeRune`, `utf8.DecodeLastRune`,
`utf8.EncodeRune`, `strings.Builder.WriteRune` and `for range` over strings; the
functions below model those library functions (Go's `unicode/utf8`, which is not part
of /repo).  A rune is a natural number: negative `int32` values never come out of
decoding.
-/
namespace Readline

abbrev Bytes := List UInt8
/-- A rune (code point). -/
macro "Rune" : term => `(Nat)

/-- `utf8.RuneError` = U+FFFD. -/
def runeError : Rune := 0xFFFD

/-- Continuation-byte test used by the decoder: byte in [lo,hi]. -/
def inRange (b : UInt8) (lo hi : Nat) : Bool := decide (lo ≤ b.toNat) && decide (b.toNat ≤ hi)

/-- Models `utf8.DecodeRuneInString` / `utf8.DecodeRune` (Go standard library), used in
internal/moji/moji.go:73,148,157,162,191,196, internal/moji/width.go:53, isearch.go:122,
tty10/main.go:71.  Returns the rune and the number of bytes consumed: `(RuneError,0)` on
the empty string, `(RuneError,1)` on malformed input. -/
def decodeRune : Bytes → Rune × Nat
  | [] => (runeError, 0)
  | b0 :: t =>
    let x := b0.toNat
    if x < 0x80 then (x, 1)
    else if x < 0xC2 then (runeError, 1)
    else if x < 0xE0 then
      match t with
      | b1 :: _ =>
        if inRange b1 0x80 0xBF then ((x - 0xC0) * 64 + (b1.toNat - 0x80), 2)
        else (runeError, 1)
      | [] => (runeError, 1)
    else if x < 0xF0 then
      match t with
      | b1 :: b2 :: _ =>
        let lo := if x = 0xE0 then 0xA0 else 0x80
        let hi := if x = 0xED then 0x9F else 0xBF
        if inRange b1 lo hi && inRange b2 0x80 0xBF then
          ((x - 0xE0) * 4096 + (b1.toNat - 0x80) * 64 + (b2.toNat - 0x80), 3)
        else (runeError, 1)
      | _ => (runeError, 1)
    else if x < 0xF5 then
      match t with
      | b1 :: b2 :: b3 :: _ =>
        let lo := if x = 0xF0 then 0x90 else 0x80
        let hi := if x = 0xF4 then 0x8F else 0xBF
        if inRange b1 lo hi && inRange b2 0x80 0xBF && inRange b3 0x80 0xBF then
          ((x - 0xF0) * 262144 + (b1.toNat - 0x80) * 4096 + (b2.toNat - 0x80) * 64
            + (b3.toNat - 0x80), 4)
        else (runeError, 1)
      | _ => (runeError, 1)
    else (runeError, 1)

/-- A Unicode scalar value: what UTF-8 can encode. -/
def isScalar (r : Rune) : Bool := decide (r < 0xD800) || (decide (0xDFFF < r) && decide (r ≤ 0x10FFFF))

/-- Models `utf8.EncodeRune` (internal/moji/codepoint.go:40) and
`strings.Builder.WriteRune` (isearch.go:67,126, getkey.go:46, completion/main.go:49,65):
surrogates and out-of-range values are written as U+FFFD. -/
def encodeRune (r : Rune) : Bytes :=
  if r < 0x80 then [UInt8.ofNat r]
  else if r < 0x800 then [UInt8.ofNat (0xC0 + r / 64), UInt8.ofNat (0x80 + r % 64)]
  else if !isScalar r then [0xEF, 0xBF, 0xBD]
  else if r < 0x10000 then
    [UInt8.ofNat (0xE0 + r / 4096), UInt8.ofNat (0x80 + r / 64 % 64), UInt8.ofNat (0x80 + r % 64)]
  else
    [UInt8.ofNat (0xF0 + r / 262144), UInt8.ofNat (0x80 + r / 4096 % 64),
     UInt8.ofNat (0x80 + r / 64 % 64), UInt8.ofNat (0x80 + r % 64)]

/-- UTF-8 text of a list of runes. -/
def encodeRunes (rs : List Rune) : Bytes := rs.flatMap encodeRune

theorem decodeRune_size_pos (b : UInt8) (t : Bytes) : 0 < (decodeRune (b :: t)).2 := by
  unfold decodeRune
  simp only
  repeat' (first | split | simp)

theorem drop_decode_lt (b : UInt8) (t : Bytes) :
    ((b :: t).drop (decodeRune (b :: t)).2).length < (b :: t).length := by
  have := decodeRune_size_pos b t
  simp only [List.length_drop, List.length_cons]
  omega

/-- The runes a `for _, c := range s` loop visits (isearch.go:65, repaints.go:32,
completion/main.go:63). -/
def runesOf : Bytes → List Rune
  | [] => []
  | b :: t => (decodeRune (b :: t)).1 :: runesOf ((b :: t).drop (decodeRune (b :: t)).2)
termination_by s => s.length
decreasing_by exact drop_decode_lt b t

/-- Models `utf8.RuneStart`: not a continuation byte. -/
def runeStart (b : UInt8) : Bool := !(inRange b 0x80 0xBF)

/-- The backward scan of `utf8.DecodeLastRune`: `n` steps remain, `start` is the current
index.  Returns the index where the last rune may start. -/
def lastStart (p : Bytes) (start : Nat) : Nat → Nat
  | 0 => start
  | n + 1 =>
    if start = 0 then 0
    else if runeStart (p.getD (start - 1) 0) then start - 1
    else lastStart p (start - 1) n

/-- Models `utf8.DecodeLastRune` (Go standard library), used in main.go:105.
`start` begins at `end-1`; at most three more bytes are inspected (`lim = end - UTFMax`).
When the scan falls off `lim` without finding a start byte, Go decodes from `lim-1` (or 0);
that decode cannot end exactly at `end`, as it starts with a byte more than four before
the end or a continuation byte, so the answer is `(RuneError,1)` as here. -/
def decodeLastRune (p : Bytes) : Rune × Nat :=
  if p = [] then (runeError, 0)
  else
    let start0 := p.length - 1
    let b := p.getD start0 0
    if b.toNat < 0x80 then (b.toNat, 1)
    else
      let start := lastStart p start0 3
      let d := decodeRune (p.drop start)
      if start + d.2 ≠ p.length then (runeError, 1) else d

end Readline
