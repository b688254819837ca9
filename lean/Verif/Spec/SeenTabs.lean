import Verif.Spec.Seen
/-!
# What a terminal should show of a line with tabs

Columns are counted from the beginning of the line, where the first tab stop is.
-/
namespace Readline.Spec

/-- The columns of a character that begins in column `k`: a tab goes to the next multiple of four. -/
def columnsAt (C : Cfg) (k : Int) (r : Rune) : Int := if r = 9 then 4 - k % 4 else plainColumns C r

/-- The column behind some characters that begin in column `k`. -/
def columnBehind (C : Cfg) : Int → List Rune → Int
  | k, [] => k
  | k, r :: rs => columnBehind C (k + columnsAt C k r) rs

/-- Characters one after the other from column `k` on, and nothing behind them; a tab is shown as
blanks. -/
def tabPicture (C : Cfg) (adv : Rune → Int) : List Rune → Int → Int → Sight
  | [], _, _ => none
  | r :: rs, k, x =>
    if k ≤ x ∧ x < k + columnsAt C k r then some (if r = 9 then (0x20, 0) else seenOf adv r (x - k))
    else tabPicture C adv rs (k + columnsAt C k r) x

/-- The terminal shows all of the line `text` from column `top` on, nothing behind it, and its cursor
stands at the character the editor's cursor stands at. -/
structure DisplaysAll (C : Cfg) (adv : Rune → Int) (v : Vt) (top : Int) (text : List Rune) (cursor : Nat) : Prop where
  mode : v.mode = .ground
  inside : cursor ≤ text.length
  col : v.col = top + columnBehind C 0 (text.take cursor)
  cells : ∀ x, 0 ≤ x → v.cells v.row (top + x) = tabPicture C adv text 0 x

/-- A session with ordinary characters and tabs from `P`, a prompt that can be written and is as wide
every time, and completion that lists nothing. -/
structure Tabular (P : Nat → Prop) (E : Env) (w : World) : Prop where
  sources : Sources P E w
  plain : ∀ r, P r → ¬ Joins E.cfg r ∧ (r = 9 ∨ Plain E.cfg r)
  written : E.promptErr = none
  prompt : ∀ n, promptWidth E n = promptWidth E w.promptN
  room : promptWidth E w.promptN + 3 < w.termWidth
  search : ∀ q, .key q ∈ w.input → lookupCommand E q = .isearchBackward → SearchOver P w.input
  box : ∀ q K, lookupCommand E q = .completion K → K.box = none

end Readline.Spec
