import Verif.Spec.Lone
import Verif.Spec.PageOnScreen
/-!
# Prompts of two rows
-/
namespace Readline.Spec

/-- A prompt of two rows. -/
def ledge (top mark : List Stroke) : Bytes := top.flatMap Stroke.bytes ++ [0x0A] ++ mark.flatMap Stroke.bytes

/-- The prompt of the second row alone. -/
def markOnly (E : Env) (mark : List Stroke) : Env := { E with prompt := some fun _ => poster .straight mark }

/-- The editor with the prompt of two rows. -/
def ledged (E : Env) (top mark : List Stroke) : Env := { E with prompt := some fun _ => ledge top mark }

/-- What the row of the prompt looks like. -/
def markSign (mark : List Stroke) : Sign := posterSign .straight mark

/-- The row above the cursor has the first row of the prompt, written over the row in which the cursor was; the rows above it are as before. -/
def Topped (C : Cfg) (adv : Rune → Int) (top : List Rune) (v v' : Vt) : Prop :=
  (∀ x, 0 ≤ x → x < textColumns C top → v'.cells (v'.row - 1) x = picture C adv top 0 x) ∧
  (∀ x, textColumns C top ≤ x → v'.cells (v'.row - 1) x = v.cells v.row x) ∧
  ∀ k, 1 ≤ k → v'.cells (v'.row - (1 + k)) = v.cells (v.row - k)

/-- At the end of the program: the two rows of the prompt, the second with the line, below them the printed lines, and the cursor in an empty row below
them.  Above is what stood there before. -/
def LedgeRows (S : Sign) (C : Cfg) (adv : Rune → Int) (rooms : Int → Prop) (top : List Rune) (v v' : Vt) (p : Page) (xs : List (List Char)) : Prop :=
  AtRow v' ∧ (∀ x, v'.cells v'.row x = none) ∧ ∃ rows, FoldedAll adv v.width xs rows ∧ Above adv v' rows.length rows ∧
    (∃ room, rooms room ∧ RowShows S C adv v' (v'.row - (rows.length + 1)) room (p.text.map Char.toNat) p.left.length) ∧
    (∀ x, 0 ≤ x → x < textColumns C top → v'.cells (v'.row - (rows.length + 2)) x = picture C adv top 0 x) ∧
    (∀ x, textColumns C top ≤ x → v'.cells (v'.row - (rows.length + 2)) x = v.cells v.row x) ∧
    ∀ k, 1 ≤ k → v'.cells (v'.row - (rows.length + 2 + k)) = v.cells (v.row - k)

end Readline.Spec
