import Verif.Spec.Example
import Verif.Model.Device
/-!
# The tests of the repository

The inputs and expected values of the tests in /repo, evaluated in the model.  These are tests, not
proofs: they are evidence that the model does what the code does.  The widths and classes of the
code points used are those of the tables (U+007F: 0, U+2640: 1, U+20E3 is in the class Me).
-/
namespace Readline
namespace Example

/-- The tables for the code points of the tests; Windows Terminal. -/
def rich : Cfg :=
  { full with
    width := fun r => if r = 0x7F then 0 else if r < 0x3000 then 1 else 2
    varSel := fun r => (0xFE00 ≤ r ∧ r ≤ 0xFE0F) ∨ (0xE0100 ≤ r ∧ r ≤ 0xE01EF) ∨ r = 0x20E3 }

/-! internal/moji/moji_test.go:12-19 -/

example : ((stringToMoji rich (b "👨\u200d🌾")).map (Moji.width rich)) = [5] := by decide +kernel

/-! internal/moji/moji_test.go:21-47 -/

def poor : Cfg := { rich with surrogateOk := false, zwjOk := false, varOk := false }

example : (stringToMoji poor (b "1\x08\t\x7F\u908a󠄄")).flatMap (Moji.print poor) =
    b "1^H <7F>\u908a<E0104>" := by decide +kernel

example : (stringToMoji poor (b "1\x08\t\x7F\u908a󠄄")).flatMap Moji.write =
    b "1\x08\t\x7F\u908a󠄄" := by decide +kernel

/-! internal/moji/moji_test.go:49-103.  `isModifierOk` and the others are as on a named terminal. -/

def counts (s : String) : List Int × Int × Nat :=
  ((stringToMoji rich (b s)).map (Moji.width rich), mojiWidthAndCount rich (b s))

example : counts "🤦\u200d\u2640\ufe0f" = ([5], 5, 1) := by decide +kernel
example : counts "#\ufe0f\u20e3" = ([3], 3, 1) := by decide +kernel
example : counts "🏳\ufe0f" = ([2], 2, 1) := by decide +kernel
example : counts "🙇🏿" = ([4], 4, 1) := by decide +kernel

/-! gommand_test.go:39-50.  The Pilot of auto/main.go answers Enter when its texts are used up. -/

def pilotKeys : Nat → List Bytes → List Ev
  | 0, _ => []
  | n + 1, t => .key (pilotGetKey t).1 :: pilotKeys n (pilotGetKey t).2

example : outcome (readLine (env rich)
    { input := pilotKeys 10 [b "👨\u200d🌾", b "\x08", b "x"] }) =
    .inr (b "x", .nil) := by decide +kernel

/-- The flags are not set by this test: where the environment names no terminal, Backspace takes away
the last code point only, and the test fails. -/
example : outcome (readLine (env plain)
    { input := pilotKeys 10 [b "👨\u200d🌾", b "\x08", b "x"] }) =
    .inr (b "👨\u200dx", .nil) := by decide +kernel

/-! auto/main_test.go:11-23 -/

example : outcome (readLine (env plain)
    { input := pilotKeys 10 [b "a", b "i", b "u", b "\x08", b "\x1b[D", b "e"] }) =
    .inr (b "aei", .nil) := by decide +kernel

/-! slice_test.go:8-27 -/

example : sliceInsert [1, 2, 3, 4, 5] 3 [6, 7, 8] = [1, 2, 3, 6, 7, 8, 4, 5] := by decide +kernel
example : sliceDelete [1, 2, 3, 4, 5] 2 2 = [1, 2, 5] := by decide +kernel

/-! color_test.go:7-21 -/

example : Color.add 0#64 1 = 0x0101#64 := by decide +kernel
example : Color.add (Color.add 0#64 1) 2 = 0x020102#64 := by decide +kernel
example : Color.chain 0x020102#64 0x020102#64 = 0x0201020104#64 := by decide +kernel

/-! main_test.go:7-21 -/

example : cutEscapeSequenceAndOldLine (b "2022-08-08 19:12:55.96\x08\x08\x08>") =
    b "2022-08-08 19:12:55>" := by decide +kernel

example : cutEscapeSequenceAndOldLine (b "first line\nsecond line") = b "second line" := by decide +kernel

end Example
end Readline
