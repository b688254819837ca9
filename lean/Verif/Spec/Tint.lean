import Verif.Spec.Ink
import Verif.Spec.Shown
/-!
# A row in colours

The row of `Spec/Row.lean`, with the colour in force and the colour every column was printed in.
-/
namespace Readline.Spec

structure Tint where
  row : Row
  /-- the colour in force -/
  ink : Option Color
  /-- the colour each column was printed in -/
  inks : Int → Option Color

/-- What a piece of output does to the row.  Literal text is interpreted by `lit`. -/
def Tint.receive (C : Cfg) (lit : Bytes → Tint → Tint) (t : Tint) : Tok → Tint
  | .lit b => lit b t
  | .gotoCol n => { t with row := { t.row with col := n - 1 } }
  | .eraseEol => { t with row := { t.row with cells := fun x => if x ≥ t.row.col then none else t.row.cells x } }
  | .sgr d => { t with ink := setInk t.ink d }
  | .glyph m =>
    { t with
      row := t.row.put C m
      inks := fun x => if t.row.col ≤ x ∧ x < t.row.col + m.width C then t.ink else t.inks x }
  | .cursorOff | .cursorOn | .flush | .await => t

/-- What some output does to the row. -/
def Tint.run (C : Cfg) (lit : Bytes → Tint → Tint) (t : Tint) (ts : List Tok) : Tint :=
  ts.foldl (Tint.receive C lit) t

/-- The colour of unit `i` of a line: the last answer when the line is read up to that unit. -/
def colourOf (C : Cfg) (K : Coloring) (line : List Moji) (i : Nat) : Color :=
  lastAnswer K ((line.take (i + 1)).flatMap (toldFor C))

/-- A colouring that does not mind where the cursor is (it is told U+E000 there). -/
def CursorBlind (K : Coloring) : Prop := ∀ σ, (K.next σ 0xE000).1 = σ

/-- A colouring for which the order of two characters makes no difference to what follows them. -/
def OrderBlind (K : Coloring) : Prop :=
  ∀ σ a b, (K.next (K.next σ a).1 b).1 = (K.next (K.next σ b).1 a).1

/-- The column unit `i` of the line begins in. -/
def place (E : Env) (s : St) (i : Int) : Int := s.topColumn + columns E.cfg (s.between s.viewStart i)

/-- The columns of every unit from `ViewStart` on, as far as anything is shown there, have the
colour the unit has in the present line; the terminal cursor stands at the cursor. -/
structure Tinted (E : Env) (s : St) (t : Tint) : Prop where
  col : t.row.col = place E s s.cursor
  inks : ∀ (i : Nat) m x, s.viewStart ≤ i → s.mojis[i]? = some m → place E s i ≤ x → x < place E s i + m.width E.cfg →
    t.row.cells x ≠ none → t.inks x = some (colourOf E.cfg E.coloring s.mojis i)

end Readline.Spec
