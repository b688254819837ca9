import Verif.Model.Buffer
/-!
# The row of the terminal being edited

The contents of one row and the column of the terminal cursor (both counted from 0).  Columns are
unbounded to the right; `high` remembers how far printing got, so that "nothing is printed beyond
the last column" can be said.  That a printed unit takes as many columns as its `Width()` is C28.

Literal bytes (prompt, line feed, colours of the prediction, bell) are interpreted by an arbitrary
function: the theorems say what they need to know about it.
-/
namespace Readline.Spec

/-- What a column of the row shows: nothing, or the `k`-th column of a unit. -/
abbrev Shown := Option (Moji × Int)

structure Row where
  col : Int
  cells : Int → Shown
  high : Int := 0

/-- Print a unit. -/
def Row.put (C : Cfg) (r : Row) (m : Moji) : Row where
  col := r.col + m.width C
  cells := fun x => if r.col ≤ x ∧ x < r.col + m.width C then some (m, x - r.col) else r.cells x
  high := max r.high (r.col + m.width C)

/-- What a piece of output does to the row. -/
def Row.receive (C : Cfg) (lit : Bytes → Row → Row) (r : Row) : Tok → Row
  | .lit b => lit b r
  | .gotoCol n => { r with col := n - 1 }
  | .eraseEol => { r with cells := fun x => if x ≥ r.col then none else r.cells x }
  | .glyph m => r.put C m
  | .cursorOff | .cursorOn | .sgr _ | .flush | .await => r

/-- What some output does to the row. -/
def Row.run (C : Cfg) (lit : Bytes → Row → Row) (r : Row) (ts : List Tok) : Row :=
  ts.foldl (Row.receive C lit) r

/-- Units one after the other from column `start` on, nothing behind them. -/
def layout (C : Cfg) : List Moji → Int → Int → Shown
  | [], _, _ => none
  | m :: ms, start, x =>
    if start ≤ x ∧ x < start + m.width C then some (m, x - start)
    else layout C ms (start + m.width C) x

/-- The columns some units take. -/
def columns (C : Cfg) : List Moji → Int
  | [] => 0
  | m :: ms => m.width C + columns C ms

/-- The units that fit: as many as take fewer than `vw` columns. -/
def FitsIn (C : Cfg) (vw : Int) (all shown : List Moji) : Prop :=
  ∃ rest, all = shown ++ rest ∧ (shown = [] ∨ columns C shown < vw) ∧
    ∀ m tail, rest = m :: tail → vw ≤ columns C shown + m.width C

end Readline.Spec
