import Verif.Spec.Seen
import Verif.Spec.Tint
/-!
# A terminal in colours

The terminal of `Spec/Vt.lean`, with the pen it writes with and the pen every cell was written with last.
What a sequence `ESC [ … m` does to the pen is up to the terminal (`ren`).
-/
namespace Readline.Spec

structure Glass (P : Type) where
  vt : Vt
  /-- what the terminal writes with -/
  pen : P
  /-- what the cell in a row and a column was written with last -/
  inks : Int → Int → P

variable {P : Type}

namespace Glass

/-- What a line feed does to the colours of the cells: if the screen scrolls up, so do they. -/
def roll (g : Glass P) : Int → Int → P :=
  if g.vt.row + 1 < g.vt.height then g.inks else fun y x => g.inks (y + 1) x

/-- Cells are written. -/
def stamp (row col n : Int) (pen : P) (inks : Int → Int → P) : Int → Int → P :=
  fun y x => if y = row ∧ col ≤ x ∧ x < col + n then pen else inks y x

/-- The numbers of a sequence; a missing one is 0. -/
def sgrNumbers (ps : List Rune) : List Nat := (Vt.numbers ps).map (·.getD 0)

/-- The pen after a character. -/
def penAfter (ren : List Nat → P → P) (g : Glass P) (r : Rune) : P :=
  match g.vt.mode with
  | .csi ps => if r = 0x6D then ren (sgrNumbers ps) g.pen else g.pen
  | _ => g.pen

/-- The colours of the cells after a character. -/
def inksAfter (adv : Rune → Int) (g : Glass P) (r : Rune) : Int → Int → P :=
  match g.vt.mode with
  | .ground =>
    if r = 0x0A then g.roll
    else if r < 0x20 ∨ (0x7F ≤ r ∧ r ≤ 0x9F) then g.inks
    else if g.vt.col + adv r ≤ g.vt.width then stamp g.vt.row g.vt.col (adv r) g.pen g.inks
    else stamp g.vt.newline.row 0 (adv r) g.pen g.roll
  | _ => g.inks

/-- The terminal receives a character. -/
def receive (ren : List Nat → P → P) (adv : Rune → Int) (g : Glass P) (r : Rune) : Glass P where
  vt := g.vt.receive adv r
  pen := g.penAfter ren r
  inks := g.inksAfter adv r

/-- The terminal receives bytes. -/
def run (ren : List Nat → P → P) (adv : Rune → Int) (g : Glass P) (bs : Bytes) : Glass P :=
  (runesOf bs).foldl (receive ren adv) g

end Glass

/-- A usual pen: colour, background, bold or not. -/
structure Pen where
  fg : Nat := 39
  bg : Nat := 49
  bold : Bool := false
deriving Repr, DecidableEq

/-- What a number does to the usual pen.  (Numbers not listed are ignored.) -/
def Pen.number (p : Pen) (n : Nat) : Pen :=
  if n = 0 then {}
  else if n = 1 then { p with bold := true }
  else if n = 22 then { p with bold := false }
  else if 30 ≤ n ∧ n ≤ 37 ∨ n = 39 then { p with fg := n }
  else if 40 ≤ n ∧ n ≤ 47 ∨ n = 49 then { p with bg := n }
  else p

/-- What a sequence does to the usual pen. -/
def Pen.sgr (ns : List Nat) (p : Pen) : Pen := ns.foldl Pen.number p

/-- The colour of character `i` of a text: what the colouring answers for it, when it has been told the
characters before it. -/
def hue (K : Coloring) (text : List Rune) (i : Nat) : Color := lastAnswer K (text.take (i + 1))

/-- The terminal shows the line (as in `Displays`), and character `i` of it, if it is seen, is written with
a pen that satisfies `paint i`. -/
def Glows (C : Cfg) (adv : Rune → Int) (paint : Nat → P → Prop) (g : Glass P) (top room : Int)
    (text : List Rune) (cursor : Nat) (hint : List Rune) : Prop :=
  g.vt.mode = .ground ∧
  ∃ away left right rest more, text = away ++ left ++ right ++ rest ∧ (away ++ left).length = cursor ∧
    (more = [] ∨ right ++ rest = [] ∧ more <+: hint) ∧
    textColumns C (left ++ right ++ more) < room ∧
    (∀ k r tail, (∀ r ∈ text, plainColumns C r = k) → rest = r :: tail →
      room ≤ textColumns C (left ++ right) + plainColumns C r) ∧
    g.vt.col = top + textColumns C left ∧
    (∀ x, top ≤ x → g.vt.cells g.vt.row x = picture C adv (left ++ right ++ more) top x) ∧
    ∀ j r x, (left ++ right)[j]? = some r → top + textColumns C ((left ++ right).take j) ≤ x →
      x < top + textColumns C ((left ++ right).take j) + plainColumns C r →
      paint (away.length + j) (g.inks g.vt.row x)

/-- A pen that was given the colour of character `i` last. -/
def Hued (ren : List Nat → P → P) (K : Coloring) (text : List Rune) (i : Nat) (p : P) : Prop :=
  ∃ q, p = ren (hue K text i).params q

/-- Is character `i` of the text inside of quotation marks, or is it one? -/
def quotedAt (text : List Rune) (i : Nat) : Bool :=
  (text.take i).count 0x22 % 2 == 1 || text[i]? == some 0x22

end Readline.Spec
