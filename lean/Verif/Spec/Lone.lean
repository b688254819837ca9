import Verif.Spec.TinyRows
import Verif.Spec.Poster
/-!
# The rows of a program that reads one line
-/
namespace Readline.Spec

/-- Several lines printed one below the other, each folded at the width `W`. -/
inductive FoldedAll (adv : Rune → Int) (W : Int) : List (List Char) → List (List Rune) → Prop
  | nil : FoldedAll adv W [] []
  | cons {x xs rows rows'} : Folded adv W (x.map Char.toNat) rows → FoldedAll adv W xs rows' → FoldedAll adv W (x :: xs) (rows ++ rows')

/-- What a program says about a line with `sep` behind its word. -/
def Ending.told (sep : List Char) : Ending → List Char
  | .entered l => "TEXT".toList ++ sep ++ l
  | .interrupted => "ERR".toList ++ sep ++ "^C".toList
  | .closed => "ERR".toList ++ sep ++ "EOF".toList
  | _ => []

/-- At the end of the program: the line behind its prompt, below it the printed lines, and the cursor in an empty row below them.  Above is what stood
there before. -/
def LoneRows (S : Sign) (C : Cfg) (adv : Rune → Int) (rooms : Int → Prop) (v v' : Vt) (p : Page) (xs : List (List Char)) : Prop :=
  AtRow v' ∧ (∀ x, v'.cells v'.row x = none) ∧ ∃ rows, FoldedAll adv v.width xs rows ∧ Above adv v' rows.length rows ∧
    (∃ room, rooms room ∧ RowShows S C adv v' (v'.row - (rows.length + 1)) room (p.text.map Char.toNat) p.left.length) ∧
    Raised S v v' (rows.length + 1 + S.drop)

end Readline.Spec
