import Verif.Model.Color
/-!
# Small packages

Models internal/moji/width.go (the cache), coloring/vimbatch.go and simplehistory/main.go.
-/
namespace Readline

/-! ## Width cache -/

/-- `widthCache`, internal/moji/width.go:11. -/
abbrev WidthCache := Rune → Option Int

/-- Operations on the cache visible to a user. -/
inductive CacheOp where
  /-- `ResetCharWidth`, width.go:14-16 -/
  | reset
  /-- `SetCharWidth`, width.go:19-21 -/
  | set (c : Rune) (w : Int)
  /-- `getWidth`, width.go:23-30 -/
  | get (c : Rune)
deriving Repr, DecidableEq

/-- One operation, internal/moji/width.go:14-30; `rw` is `runeWidth`. Returns the width for
`getWidth`. -/
def cacheStep (rw : Rune → Int) (cache : WidthCache) : CacheOp → WidthCache × Option Int
  | .reset => (fun _ => none, none)
  | .set c w => (fun r => if r = c then some w else cache r, none)
  | .get c =>
    match cache c with
    | some w => (cache, some w)
    | none => (fun r => if r = c then some (rw c) else cache r, some (rw c))

/-- A sequence of operations from the empty cache (width.go:11): the answers. -/
def cacheRun (rw : Rune → Int) : WidthCache → List CacheOp → List (Option Int)
  | _, [] => []
  | cache, op :: ops =>
    let (cache', a) := cacheStep rw cache op
    a :: cacheRun rw cache' ops

/-! ## VimBatch -/

/-- `(*VimBatch).Next`, coloring/vimbatch.go:21-42: new `bits` (bit 0 = `envArea`, bit 1 =
`quotedArea`) and the colour. The two bits are kept as Booleans. -/
def vimNext (st : Bool × Bool) (r : Rune) : (Bool × Bool) × Color :=
  let new : Bool × Bool :=
    if r = 0x25 then (!st.1, st.2)
    else if r = 0x22 then (st.1, !st.2)
    else st
  let color :=
    if r = 0x3000 then sgr3 37 22 41
    else if st.1 || new.1 then fgColor 6
    else if st.2 || new.2 then fgColor 5
    else if r = 0x26 then darkFgColor 3
    else defaultForeGroundColor
  (new, color)

/-- `VimBatch` as a `Coloring`: `Init`, coloring/vimbatch.go:11-14. -/
def vimBatch : Coloring where
  σ := Bool × Bool
  init := (false, false)
  defaultColor := colorReset
  next := vimNext

/-- `Coloring.Next`, test/color-sgr/main.go:24-39 and test/color-default-symbol/main.go:24-39.  The
deferred assignment of the new state happens after the colour has been chosen. -/
def quoteNext (inside outside : Color) (quoted : Bool) (r : Rune) : Bool × Color :=
  let next := if r = 0x22 then !quoted else quoted
  (next, if next || quoted then inside else outside)

/-- The `Coloring` of the two programs: `Init`, main.go:19-22 of both. -/
def quoting (inside outside : Color) : Coloring where
  σ := Bool
  init := false
  defaultColor := outside
  next := quoteNext inside outside

/-- test/color-sgr/main.go:14-17. -/
def colorSgr : Coloring := quoting (sgr4 0 35 40 1) (sgr4 0 37 40 1)

/-- test/color-default-symbol/main.go:14-17: `Magenta` and `White`. -/
def colorSymbol : Coloring := quoting (fgColor 5) (fgColor 7)

/-! ## simplehistory -/

/-- `Container`, simplehistory/main.go:3-5. -/
structure Container where
  buffer : List Bytes := []
deriving Repr, DecidableEq

/-- `At`, simplehistory/main.go:7-9; `none` is a panic. -/
def Container.at (c : Container) (n : Int) : Option Bytes :=
  if n < 0 then none else c.buffer[n.toNat]?

/-- `Len`, simplehistory/main.go:11-13. -/
def Container.len (c : Container) : Nat := c.buffer.length

/-- `Add`, simplehistory/main.go:15-17. -/
def Container.add (c : Container) (s : Bytes) : Container := { buffer := c.buffer ++ [s] }

end Readline
