import Verif.Spec.Methods
import Verif.Spec.Joiner
/-!
# How a line that does not fit is scrolled

`viewStart` is the index of the first unit that is shown and `viewWidth` the number of columns that can be used.
-/
namespace Readline.Spec

/-- The columns that the units from `a` up to but not including `b` take. -/
def across (C : Cfg) (s : St) (a b : Int) : Int := (between (columnsOf C s) a b).sum

/-- The line is scrolled so that the units before `e` can be seen, and scrolled less they could not. -/
structure Least (C : Cfg) (s : St) (e : Int) : Prop where
  low : 0 ≤ s.viewStart
  fits : across C s s.viewStart e < s.viewWidth
  less : ∀ j, 0 ≤ j → j < s.viewStart → s.viewWidth ≤ across C s j e

/-- The end of the unit under the cursor, or of the line. -/
def behind (s : St) : Int := min (s.cursor + 1) s.len

/-- How the first unit that is shown may change. -/
inductive Scrolls (C : Cfg) (s s' : St) : Prop where
  /-- it stays -/
  | stays : s'.viewStart = s.viewStart → Scrolls C s s'
  /-- the cursor has left the window on the left: the window begins at the cursor -/
  | left : s'.cursor < s.viewStart → s'.viewStart = s'.cursor → Scrolls C s s'
  /-- a character just left of the window has been extended: the window begins with it -/
  | extended : s.cursor = s.viewStart → s'.viewStart = s.viewStart - 1 → Scrolls C s s'
  /-- scrolled as far as the unit under the cursor requires -/
  | under : Least C s' (behind s') → Scrolls C s s'
  /-- scrolled as far as the units left of the cursor require -/
  | edge : Least C s' s'.cursor → Scrolls C s s'

/-- What is assumed of a line: no tabs, a view that is not empty, and no unit that does not fit into it. -/
structure Spacious (C : Cfg) (s : St) : Prop where
  tabs : ∀ c ∈ s.buf, ∀ p, c.moji ≠ .tab p
  view : 0 < s.viewWidth
  narrow : ∀ w ∈ columnsOf C s, w < s.viewWidth

/-- The unit under the cursor is no wider than the first one that is shown. -/
def NoWider (C : Cfg) (s : St) : Prop :=
  ∀ a c, (columnsOf C s)[s.cursor.toNat]? = some c → (columnsOf C s)[s.viewStart.toNat]? = some a → c ≤ a

/-- The cursor is in the window that was shown. -/
def StillSeen (C : Cfg) (s s' : St) : Prop :=
  s.viewStart ≤ s'.cursor ∧ across C s' s.viewStart s'.cursor < s'.viewWidth

/-- Typing `k` does not change a character left of the window. -/
def Apart (C : Cfg) (s : St) (k : Bytes) : Prop :=
  s.viewStart < s.cursor ∨ s.cursor ≤ 0 ∨ ¬ Joins C (decodeRune (stripAlt k)).1

/-- Motions, deletions and typing. -/
def Gentle : Cmd → Bool
  | .beginningOfLine | .backwardChar | .endOfLine | .forwardChar | .backwardWord | .forwardWord
  | .backwardDeleteChar | .deleteChar | .deleteOrAbort | .killLine | .killWholeLine | .unixLineDiscard
  | .swapChar | .selfInsert _ => true
  | _ => false

end Readline.Spec
