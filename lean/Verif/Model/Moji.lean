import Verif.Model.Utf8
/-!
# Editing units ("moji")

Models internal/moji/{moji,codepoint,width,termcheck}.go.
-/
namespace Readline

/-- The terminal-dependent package variables of internal/moji.
* the five flags: internal/moji/termcheck.go:16-33
* `width`: `getWidth`, internal/moji/width.go:23-30 (the cache in front of the third-party
  `runeWidth` is modelled in `Model/Misc.lean` and shown invisible by C32)
* `zwjWidth`: `GetZWJSWidth`, internal/moji/moji.go:20-22
* `varSel`: `unicode.Is(unicode.Variation_Selector, ·) || unicode.Is(unicode.Me, ·)`
  (Go library tables; their contents depend on the Unicode version of the toolchain).
The variables are constant during one `ReadLine` in the model. -/
structure Cfg where
  surrogateOk : Bool
  zwjOk : Bool
  varOk : Bool
  modOk : Bool
  ambWide : Bool
  width : Rune → Int
  zwjWidth : Int → Int → Int
  varSel : Rune → Bool

/-- The default `GetZWJSWidth`, internal/moji/moji.go:20-22. -/
def defaultZwjWidth (w1 w2 : Int) : Int := w1 + 1 + w2

/-- internal/moji/moji.go:14-18 and its implementations:
`tab`  = `*Tab` (codepoint.go:10; the mutable `pos` field is part of the value because no
two live cells share a `*Tab`),
`raw`  = `_RawCodePoint` (codepoint.go:32), `esc` = `_EscCodePoint` (codepoint.go:54),
`ri`   = `_RegionalIndicator` (codepoint.go:68), `ctrl` = `_CtrlCodePoint` (codepoint.go:83),
`flag` = `_WavingWhiteFlagCodePoint` (codepoint.go:102),
`zwj`  = `_ZeroWidthJoinSequence` (moji.go:24), `modi` = `_ModifierSequence` (moji.go:60),
`vari` = `_VariationSequence` (moji.go:94). -/
inductive Moji where
  | tab (pos : Int)
  | raw (r : Rune)
  | esc (r : Rune)
  | ri (r : Rune)
  | ctrl (r : Rune)
  | flag (r : Rune)
  | zwj (a b : Moji)
  | modi (a b : Moji)
  | vari (a b : Moji)
deriving Repr, DecidableEq, Inhabited

/-- Conversion to Go's `int16` (internal/moji/codepoint.go:130, repaints.go:38). -/
def toInt16 (x : Int) : Int := Int.bmod x 65536

/-- `lenEscaped`, internal/moji/width.go:32-39. -/
def lenEscapedLoop (c : Nat) (w : Int) : Int :=
  if c > 0xF then lenEscapedLoop (c / 16) (w + 1) else w
termination_by c
decreasing_by omega

/-- `lenEscaped`, internal/moji/width.go:32-39. -/
def lenEscaped (c : Rune) : Int := lenEscapedLoop c 3

/-- `Width()` of every implementation: codepoint.go:14-16, 34-36, 56-58, 70-72, 85-87,
104-106, moji.go:26-30, 77-79, 96-103.  Go's `%` truncates (`Int.tmod`). -/
def Moji.width (C : Cfg) : Moji → Int
  | .tab pos => 4 - Int.tmod pos 4
  | .raw r => C.width r
  | .esc r => lenEscaped r
  | .ri _ => 2
  | .ctrl _ => 2
  | .flag _ => 2
  | .zwj a b => C.zwjWidth (a.width C) (b.width C)
  | .modi a b => a.width C + b.width C
  | .vari (.flag _) _ => 2
  | .vari a _ => a.width C + 1

/-- `zeroWidthJoinRune`, internal/moji/moji.go:138. -/
def zwjRune : Rune := 0x200D

/-- `WriteTo` of every implementation (the text of the unit): codepoint.go:22-25, 45-47,
64-66, 78-80, 93-95, 114-116, moji.go:32-43, 81-88, 105-112. -/
def Moji.write : Moji → Bytes
  | .tab _ => [9]
  | .raw r | .esc r | .ri r | .ctrl r | .flag r => encodeRune r
  | .zwj a b => a.write ++ encodeRune zwjRune ++ b.write
  | .modi a b => a.write ++ b.write
  | .vari a b => a.write ++ b.write

/-- ASCII code of an upper-case hexadecimal digit. -/
def hexDigit (d : Nat) : UInt8 := if d < 10 then UInt8.ofNat (48 + d) else UInt8.ofNat (55 + d)

/-- `%X` of `fmt` for a non-negative number. -/
def hexUpper (n : Nat) : Bytes :=
  if n < 16 then [hexDigit n] else hexUpper (n / 16) ++ [hexDigit (n % 16)]
termination_by n
decreasing_by omega

/-- `saveCursorAfterN`, internal/moji/moji.go:114-122. -/
def saveCursorAfterN (n : Int) : Bytes :=
  List.replicate n.toNat 0x20 ++ [0x1B, 0x37] ++ List.replicate n.toNat 0x08

/-- `restoreCursor`, internal/moji/moji.go:124-126. -/
def restoreCursor : Bytes := [0x1B, 0x38]

/-- `PrintTo` of every implementation (what is sent to the terminal): codepoint.go:18-20,
49-51, 60-62, 74-76, 89-91, 108-112, moji.go:45-58, 90-92, 128-136.  The panic of
codepoint.go:19 for a negative index is `printPanics` below. -/
def Moji.print (C : Cfg) : Moji → Bytes
  | .tab pos => List.replicate (4 - Int.tmod pos 4).toNat 0x20
  | .raw r => encodeRune r
  | .esc r => [0x3C] ++ hexUpper r ++ [0x3E]
  | .ri r => encodeRune r
  | .ctrl r => [0x5E, 0x41 + (UInt8.ofNat r - 1)]
  | .flag r => saveCursorAfterN 2 ++ encodeRune r ++ restoreCursor
  | .zwj (.flag r) b =>
    saveCursorAfterN ((Moji.zwj (.flag r) b).width C) ++ encodeRune r ++ encodeRune zwjRune
      ++ b.write ++ restoreCursor
  | .zwj a b => a.print C ++ encodeRune zwjRune ++ b.print C
  | .modi a b => a.write ++ b.write
  | .vari a b =>
    saveCursorAfterN ((Moji.vari a b).width C) ++ a.write ++ b.write ++ restoreCursor

/-- `"    "[t.pos%4:]` (codepoint.go:19) panics when the `int16` position is negative and
not a multiple of four.  A `Tab` inside a joined sequence is printed through moji.go:54. -/
def Moji.printPanics : Moji → Bool
  | .tab pos => decide (Int.tmod pos 4 < 0)
  | .zwj (.flag _) _ => false
  | .zwj a b => a.printPanics || b.printPanics
  | _ => false

/-- `isEmojiModifier`, internal/moji/moji.go:62-67. -/
def isEmojiModifier (C : Cfg) (r : Rune) : Bool :=
  C.modOk && (decide (0x1F3FB ≤ r) && decide (r ≤ 0x1F3FF))

/-- `AreEmojiModifier`, internal/moji/moji.go:69-75. -/
def areEmojiModifier (C : Cfg) (s : Bytes) : Bool :=
  C.modOk && isEmojiModifier C (decodeRune s).1

/-- `isZeroWidthJoin`, internal/moji/moji.go:140-142; `unicode.Join_Control` is
{U+200C, U+200D}. -/
def isZeroWidthJoin (C : Cfg) (r : Rune) : Bool :=
  C.zwjOk && (decide (r = 0x200C) || decide (r = 0x200D))

/-- `AreZeroWidthJoin`, internal/moji/moji.go:144-150. -/
def areZeroWidthJoin (C : Cfg) (s : Bytes) : Bool :=
  C.zwjOk && isZeroWidthJoin C (decodeRune s).1

/-- `isVariationSelectorLike`, internal/moji/width.go:41-47. -/
def isVariationSelectorLike (C : Cfg) (r : Rune) : Bool := C.varOk && C.varSel r

/-- `AreVariationSelectorLike`, internal/moji/width.go:49-55. -/
def areVariationSelectorLike (C : Cfg) (s : Bytes) : Bool :=
  C.varOk && isVariationSelectorLike C (decodeRune s).1

/-- `isToBeEscaped`, internal/moji/width.go:57-61. -/
def isToBeEscaped (C : Cfg) (r : Rune) : Bool :=
  isVariationSelectorLike C r || (decide (0x10000 ≤ r) && !C.surrogateOk) || decide (C.width r = 0)

/-- `rune2moji`, internal/moji/codepoint.go:128-146. -/
def rune2moji (C : Cfg) (r : Rune) (pos : Int) : Moji :=
  if r = 9 then .tab (toInt16 pos)
  else if r < 0x20 then .ctrl r
  else if 0x2500 ≤ r ∧ r ≤ 0x257F ∧ C.ambWide = true then .flag r
  else if isToBeEscaped C r then .esc r
  else if 0x1F1E6 ≤ r ∧ r ≤ 0x1F1FF then .ri r
  else if 0x1D400 ≤ r ∧ r ≤ 0x1D7FF then .flag r
  else if r = 0x1F3F3 then .flag r
  else .raw r

/-- `MojiToRune`, internal/moji/codepoint.go:148-163 (a tab is not a rune here). -/
def Moji.toRune? : Moji → Option Rune
  | .raw r | .esc r | .ri r | .ctrl r | .flag r => some r
  | _ => none

/-- `unicode.IsSpace` (Go library, White_Space). -/
def isSpaceRune (r : Rune) : Bool :=
  (decide (9 ≤ r) && decide (r ≤ 13)) || r == 0x20 || r == 0x85 || r == 0xA0 || r == 0x1680 ||
  (decide (0x2000 ≤ r) && decide (r ≤ 0x200A)) || r == 0x2028 || r == 0x2029 || r == 0x202F ||
  r == 0x205F || r == 0x3000

/-- `IsSpaceMoji`, internal/moji/codepoint.go:165-170. -/
def Moji.isSpace (m : Moji) : Bool :=
  match m.toRune? with
  | some r => isSpaceRune r
  | none => false

/-- The loop of `StringToMoji`, internal/moji/moji.go:156-183.  `acc` is `mojis` reversed;
`last != nil` is `acc ≠ []` and `mojis[len-1] = last` replaces its head. -/
def stringToMojiLoop (C : Cfg) (s : Bytes) (acc : List Moji) (pos : Int) : List Moji :=
  match s with
  | [] => acc.reverse
  | b :: t =>
    let r := (decodeRune (b :: t)).1
    let s1 := (b :: t).drop (decodeRune (b :: t)).2
    match acc with
    | last :: rest =>
      if isZeroWidthJoin C r then
        let next := (decodeRune s1).1
        let s2 := s1.drop (decodeRune s1).2
        stringToMojiLoop C s2 (.zwj last (.raw next) :: rest) pos
      else if isVariationSelectorLike C r then
        stringToMojiLoop C s1 (.vari last (.raw r) :: rest) pos
      else if isEmojiModifier C r then
        stringToMojiLoop C s1 (.modi last (.raw r) :: rest) pos
      else
        let m := rune2moji C r pos
        stringToMojiLoop C s1 (m :: last :: rest) (pos + m.width C)
    | [] =>
      let m := rune2moji C r pos
      stringToMojiLoop C s1 [m] (pos + m.width C)
termination_by s.length
decreasing_by
  all_goals
    have h := drop_decode_lt b t
    simp only [List.length_drop] at *
    omega

/-- `StringToMoji`, internal/moji/moji.go:152-185 (and buffer.go:289-291). -/
def stringToMoji (C : Cfg) (s : Bytes) : List Moji := stringToMojiLoop C s [] 0

/-- The loop of `MojiWidthAndCountInString`, internal/moji/moji.go:190-224. -/
def widthCountLoop (C : Cfg) (s : Bytes) (last : Option Moji) (lastWidth width : Int)
    (count : Nat) : Int × Nat :=
  match s with
  | [] => (width, count)
  | b :: t =>
    let r := (decodeRune (b :: t)).1
    let s1 := (b :: t).drop (decodeRune (b :: t)).2
    match last with
    | some last =>
      if isZeroWidthJoin C r then
        let next := (decodeRune s1).1
        let s2 := s1.drop (decodeRune s1).2
        let m := Moji.zwj last (.raw next)
        widthCountLoop C s2 (some m) (m.width C) (width - lastWidth + m.width C) count
      else if isVariationSelectorLike C r then
        let m := Moji.vari last (.raw r)
        widthCountLoop C s1 (some m) (m.width C) (width - lastWidth + m.width C) count
      else if isEmojiModifier C r then
        let m := Moji.modi last (.raw r)
        widthCountLoop C s1 (some m) (m.width C) (width - lastWidth + m.width C) count
      else
        let m := rune2moji C r width
        widthCountLoop C s1 (some m) (m.width C) (width + m.width C) (count + 1)
    | none =>
      let m := rune2moji C r width
      widthCountLoop C s1 (some m) (m.width C) (width + m.width C) (count + 1)
termination_by s.length
decreasing_by
  all_goals
    have h := drop_decode_lt b t
    simp only [List.length_drop] at *
    omega

/-- `MojiWidthAndCountInString`, internal/moji/moji.go:187-226 (`GetStringWidth`,
`MojiCountInString`, buffer.go:293-301). -/
def mojiWidthAndCount (C : Cfg) (s : Bytes) : Int × Nat := widthCountLoop C s none 0 0 0

end Readline
