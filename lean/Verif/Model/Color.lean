import Verif.Model.Utf8
/-!
# Colour sequences

Models color.go: an `int64` holding a count in its low byte and up to seven SGR parameters
in the following bytes.
-/
namespace Readline

/-- `ColorSequence` (an `int64`), color.go:15. -/
abbrev Color := BitVec 64

/-- `colorCodeMask`, color.go:17-20. -/
def colorMask : Color := 255#64

/-- `ColorSequence(value)` for an `int` value: conversion to int64. -/
def colorOfInt (v : Int) : Color := BitVec.ofInt 64 v

/-- `(ColorSequence).Add`, color.go:22-25.  The shift count is `n*8 ≤ 2048`; a shift of 64
or more gives 0 both in Go and in `BitVec`. -/
def Color.add (c : Color) (value : Int) : Color :=
  let n := (c &&& colorMask) + 1#64
  ((c &&& ~~~colorMask) ||| n) ||| (colorOfInt value <<< (n * 8#64).toNat)

/-- The loop of `Chain`, color.go:28-31, `n` iterations left; `>>=` on a signed integer is
arithmetic. -/
def Color.chainLoop : Nat → Color → Color → Color
  | 0, c, _ => c
  | n + 1, c, value =>
    let value := value.sshiftRight 8
    Color.chainLoop n (Color.add c ((value &&& colorMask).toNat : Int)) value

/-- `(ColorSequence).Chain`, color.go:27-33. -/
def Color.chain (c value : Color) : Color :=
  Color.chainLoop (value &&& colorMask).toNat c value

/-- `ColorReset`, color.go:35-37. -/
def colorReset : Color := 1#64

/-- `Black` .. `White`, `DefaultForeGroundColor`: color.go:39-50 (`i` is `iota`). -/
def fgColor (i : Nat) : Color :=
  3#64 ||| (BitVec.ofNat 64 (30 + i) <<< 8) ||| (49#64 <<< 16) ||| (1#64 <<< 24)

/-- `DarkGray` .. `DarkDefaultForeGroundColor`: color.go:52-63. -/
def darkFgColor (i : Nat) : Color :=
  3#64 ||| (BitVec.ofNat 64 (30 + i) <<< 8) ||| (22#64 <<< 16) ||| (49#64 <<< 24)

/-- `DefaultForeGroundColor`, color.go:49. -/
def defaultForeGroundColor : Color := fgColor 9

/-- `SGR1`, color.go:75-78. -/
def sgr1 (n1 : Int) : Color := 1#64 ||| (colorOfInt n1 <<< 8)

/-- `SGR2`, color.go:80-84. -/
def sgr2 (n1 n2 : Int) : Color := 2#64 ||| (colorOfInt n1 <<< 8) ||| (colorOfInt n2 <<< 16)

/-- `SGR3`, color.go:86-91. -/
def sgr3 (n1 n2 n3 : Int) : Color :=
  3#64 ||| (colorOfInt n1 <<< 8) ||| (colorOfInt n2 <<< 16) ||| (colorOfInt n3 <<< 24)

/-- `SGR4`, color.go:93-99. -/
def sgr4 (n1 n2 n3 n4 : Int) : Color :=
  4#64 ||| (colorOfInt n1 <<< 8) ||| (colorOfInt n2 <<< 16) ||| (colorOfInt n3 <<< 24)
    ||| (colorOfInt n4 <<< 32)

/-- Decimal digits, `%d` of `fmt` for a natural number. -/
def decNat (n : Nat) : Bytes :=
  if n < 10 then [UInt8.ofNat (48 + n)] else decNat (n / 10) ++ [UInt8.ofNat (48 + n % 10)]
termination_by n
decreasing_by omega

/-- `%d` of `fmt`. -/
def decInt (i : Int) : Bytes := if i < 0 then 0x2D :: decNat i.natAbs else decNat i.toNat

/-- The parameters printed by the loop of `WriteTo`, color.go:108-124: at least one, then
while the count allows. `n` is the number of further iterations. -/
def Color.paramsLoop : Nat → Color → List Nat
  | 0, _ => []
  | n + 1, c =>
    let c := c.sshiftRight 8
    (c &&& colorMask).toNat :: Color.paramsLoop n c

/-- The SGR parameters `WriteTo` prints: `max 1 count` of them (color.go:107-118). -/
def Color.params (c : Color) : List Nat := Color.paramsLoop (max 1 (c &&& colorMask).toNat) c

/-- Parameters joined with `;`. -/
def joinSemi : List Nat → Bytes
  | [] => []
  | [x] => decNat x
  | x :: xs => decNat x ++ [0x3B] ++ joinSemi xs

/-- `(ColorSequence).WriteTo`, color.go:101-128 (write errors are not modelled). -/
def Color.write (c : Color) : Bytes :=
  if c.toInt ≤ 0 then [] else [0x1B, 0x5B] ++ joinSemi c.params ++ [0x6D]

/-- `Coloring` interface, color.go:8-13.  A colouring object is modelled by the state after
`Init` and a transition function; `Init` is assumed to reset the object completely, as its
comment requires. -/
structure Coloring where
  σ : Type
  init : σ
  defaultColor : Color
  next : σ → Rune → σ × Color

/-- `_MonoChrome`, color.go:65-73. -/
def monoChrome : Coloring where
  σ := Unit
  init := ()
  defaultColor := defaultForeGroundColor
  next := fun _ _ => ((), defaultForeGroundColor)

end Readline
