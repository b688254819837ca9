import Verif.Model.Moji
/-!
# A terminal that receives bytes

A screen of `width` times `height` cells in the manner of a VT100 or xterm: it decodes UTF-8,
understands the control sequences that readline writes and the usual ones of prompts, wraps at the
right margin and scrolls at the bottom.

A line feed also goes back to the first column: the terminal driver is not in raw mode while
readline writes (C52).  Control sequences that are not listed are ignored.  Writing over one half of
a wide character leaves the other half alone.
-/
namespace Readline.Spec

/-- What a cell of the screen shows: nothing, or the `k`-th column of a character. -/
abbrev Sight := Option (Rune × Int)

/-- Inside a control sequence or not. -/
inductive Parse where
  | ground
  | escape
  | csi (params : List Rune)
deriving Repr, DecidableEq

structure Vt where
  width : Int
  height : Int
  row : Int
  col : Int
  /-- the cell in a row and a column -/
  cells : Int → Int → Sight
  saved : Int × Int := (0, 0)
  mode : Parse := .ground
  /-- is the cursor shown -/
  cursor : Bool := true

namespace Vt

/-- Line feed: to the next row, or the screen scrolls up. -/
def newline (v : Vt) : Vt :=
  if v.row + 1 < v.height then { v with row := v.row + 1, col := 0 }
  else { v with col := 0, cells := fun y x => if y < v.height - 1 then v.cells (y + 1) x else none }

/-- Show a character in the columns from the cursor on. -/
def put (v : Vt) (n : Int) (r : Rune) : Vt :=
  { v with
    col := v.col + n
    cells := fun y x => if y = v.row ∧ v.col ≤ x ∧ x < v.col + n then some (r, x - v.col) else v.cells y x }

/-- Print a character of `n` columns, on the next row if it does not fit. -/
def print (v : Vt) (n : Int) (r : Rune) : Vt :=
  if v.col + n ≤ v.width then v.put n r else v.newline.put n r

/-- Make all cells empty that satisfy a condition. -/
def erase (v : Vt) (p : Int → Int → Bool) : Vt :=
  { v with cells := fun y x => if p y x then none else v.cells y x }

/-- Go to a column of the same row. -/
def along (v : Vt) (col : Int) : Vt := { v with col := max 0 (min col (v.width - 1)) }

/-- Go to a row. -/
def down (v : Vt) (row : Int) : Vt := { v with row := max 0 (min row (v.height - 1)) }

/-- Numbers separated by semicolons. -/
def numbers (ps : List Rune) : List (Option Nat) :=
  (ps.splitOn 0x3B).map fun d =>
    if d ≠ [] ∧ d.all (fun r => decide (0x30 ≤ r) && decide (r ≤ 0x39)) then
      some (d.foldl (fun n r => 10 * n + (r - 0x30)) 0)
    else none

/-- The `i`-th parameter, counted from 0; if it is missing, `d`. -/
def param (ps : List Rune) (i d : Nat) : Nat := (((numbers ps)[i]?).join).getD d

/-- A control sequence `ESC [ params final`. -/
def control (v : Vt) (ps : List Rune) (final : Rune) : Vt :=
  let v := { v with mode := .ground }
  let n : Int := max 1 (param ps 0 1)
  if final = 0x41 then v.down (v.row - n)                                   -- A
  else if final = 0x42 then v.down (v.row + n)                              -- B
  else if final = 0x43 then v.along (v.col + n)                             -- C
  else if final = 0x44 then v.along (v.col - n)                             -- D
  else if final = 0x47 then v.along (n - 1)                                 -- G
  else if final = 0x48 then (v.down (n - 1)).along (max 1 (param ps 1 1) - 1) -- H
  else if final = 0x4A then                                                 -- J
    match param ps 0 0 with
    | 0 => v.erase fun y x => decide (v.row < y) || (y == v.row && decide (v.col ≤ x))
    | 1 => v.erase fun y x => decide (y < v.row) || (y == v.row && decide (x ≤ v.col))
    | _ => v.erase fun _ _ => true
  else if final = 0x4B then                                                 -- K
    match param ps 0 0 with
    | 0 => v.erase fun y x => y == v.row && decide (v.col ≤ x)
    | 1 => v.erase fun y x => y == v.row && decide (x ≤ v.col)
    | _ => v.erase fun y _ => y == v.row
  else if final = 0x73 then { v with saved := (v.row, v.col) }              -- s
  else if final = 0x75 then { v with row := v.saved.1, col := v.saved.2 }   -- u
  else if final = 0x68 ∧ ps = [0x3F, 0x32, 0x35] then { v with cursor := true }   -- ?25h
  else if final = 0x6C ∧ ps = [0x3F, 0x32, 0x35] then { v with cursor := false }  -- ?25l
  else v

/-- The terminal receives a character; `adv` says how many columns a printable one takes. -/
def receive (adv : Rune → Int) (v : Vt) (r : Rune) : Vt :=
  match v.mode with
  | .ground =>
    if r = 0x1B then { v with mode := .escape }
    else if r = 0x08 then { v with col := max 0 (v.col - 1) }
    else if r = 0x0D then { v with col := 0 }
    else if r = 0x0A then v.newline
    else if r < 0x20 ∨ (0x7F ≤ r ∧ r ≤ 0x9F) then v
    else v.print (adv r) r
  | .escape =>
    if r = 0x5B then { v with mode := .csi [] }
    else if r = 0x37 then { v with mode := .ground, saved := (v.row, v.col) }
    else if r = 0x38 then { v with mode := .ground, row := v.saved.1, col := v.saved.2 }
    else { v with mode := .ground }
  | .csi ps => if 0x40 ≤ r ∧ r ≤ 0x7E then v.control ps r else { v with mode := .csi (ps ++ [r]) }

/-- The terminal receives bytes. -/
def run (adv : Rune → Int) (v : Vt) (bs : Bytes) : Vt := (runesOf bs).foldl (receive adv) v

end Vt
end Readline.Spec
