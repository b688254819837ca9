import Verif.Spec.Sign
import Verif.Spec.Textbook
/-!
# A page of the textbook on a terminal
-/
namespace Readline.Spec

/-- The terminal shows the page: a row that begins with the prompt, then the line, as much of it as there is room for, with the
cursor at the character the page's cursor is at; if the cursor is at the end, perhaps some of `hint` behind it. -/
def ShowsPage (S : Sign) (C : Cfg) (adv : Rune → Int) (v : Vt) (room : Int) (p : Page) (hint : List Rune) : Prop :=
  S.At C adv v v.row ∧ Displays C adv v (S.columns C) room (p.text.map Char.toNat) p.left.length hint

end Readline.Spec
