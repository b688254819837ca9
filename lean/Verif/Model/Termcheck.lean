import Verif.Model.Moji
/-!
# What the environment says about the terminal

Models internal/moji/termcheck.go and internal/moji/orgxwidth.go (build tag `orgxwidth`).  The
other width function, internal/moji/runewidth.go, is a third-party package and stays a parameter.
-/
namespace Readline

/-- `os.Getenv`: the value of a variable, empty if it is not set. -/
abbrev Environ := String → String

/-- `isVsCodeTerminal`, internal/moji/termcheck.go:8. -/
def isVsCodeTerminal (e : Environ) : Bool := e "VSCODE_PID" != ""

/-- `isWindowsTerminal`, internal/moji/termcheck.go:10. -/
def isWindowsTerminal (e : Environ) : Bool :=
  e "WT_SESSION" != "" && e "WT_PROFILE_ID" != "" && !isVsCodeTerminal e

/-- `isWezTerm`, internal/moji/termcheck.go:12. -/
def isWezTerm (e : Environ) : Bool := e "TERM_PROGRAM" == "WezTerm"

/-- `isContour`, internal/moji/termcheck.go:14. -/
def isContour (e : Environ) : Bool := e "TERMINAL_NAME" == "contour"

/-- `SurrogatePairOk`, internal/moji/termcheck.go:18. -/
def surrogatePairOk (e : Environ) : Bool := isWindowsTerminal e || isWezTerm e || isContour e

/-- `ZeroWidthJoinSequenceOk`, internal/moji/termcheck.go:22. -/
def zeroWidthJoinSequenceOk (e : Environ) : Bool := isWindowsTerminal e || isWezTerm e || isContour e

/-- `VariationSequenceOk`, internal/moji/termcheck.go:26. -/
def variationSequenceOk (e : Environ) : Bool := isWindowsTerminal e || isWezTerm e || isContour e

/-- `ModifierSequenceOk`, internal/moji/termcheck.go:30. -/
def modifierSequenceOk (e : Environ) : Bool := isWindowsTerminal e || isWezTerm e

/-- `AmbiguousIsWide`, internal/moji/termcheck.go:33. -/
def ambiguousIsWide (e : Environ) : Bool := !isWindowsTerminal e

/-- The package variables of internal/moji as they are when the program starts.  `runeWidth` is
`newRuneWidth` of the build, applied to `AmbiguousIsWide` (runewidth.go:9-15, orgxwidth.go:37);
`zwjWidth` is the default of moji.go:20-22; `varSel` are the Unicode tables. -/
def startCfg (runeWidth : Bool → Rune → Int) (varSel : Rune → Bool) (e : Environ) : Cfg where
  surrogateOk := surrogatePairOk e
  zwjOk := zeroWidthJoinSequenceOk e
  varOk := variationSequenceOk e
  modOk := modifierSequenceOk e
  ambWide := ambiguousIsWide e
  width := runeWidth (ambiguousIsWide e)
  zwjWidth := defaultZwjWidth
  varSel := varSel

/-- `width.Kind` of golang.org/x/text/width. -/
inductive WidthKind where
  | neutral
  | ambiguous
  | wide
  | narrow
  | fullwidth
  | halfwidth
deriving DecidableEq, Repr

/-- The Unicode tables `orgxwidth.go` reads.  `printable`: what `unicode.IsPrint` answers above
U+00FF; `kind`: `width.LookupRune(r).Kind()`. -/
structure WidthTables where
  printable : Rune → Bool
  kind : Rune → WidthKind

/-- `unicode.IsPrint`: up to U+00FF a fixed table (the ASCII characters, and those from U+00A1 on
but the soft hyphen), above it the Unicode tables. -/
def WidthTables.isPrint (T : WidthTables) (r : Rune) : Bool :=
  if r ≤ 0xFF then
    (decide (0x20 ≤ r) && decide (r ≤ 0x7E)) || (decide (0xA1 ≤ r) && !decide (r = 0xAD))
  else T.printable r

/-- `newRuneWidth`, internal/moji/orgxwidth.go:11-35. -/
def orgRuneWidth (T : WidthTables) (ambWide : Bool) (r : Rune) : Int :=
  let aw := if ambWide then 2 else 1
  if !T.isPrint r then 0
  else
    match T.kind r with
    | .neutral | .narrow | .halfwidth => 1
    | .wide | .fullwidth => 2
    | .ambiguous => aw

end Readline
