import Verif.Model.ReadLine
import Verif.Spec.Vt
/-!
# The screen after it was cleared
-/
namespace Readline.Spec

/-- A key that clears the screen was read, and since then none that writes the line again in the next row. -/
inductive Wiped (E : Env) (w : World) : St → Prop where
  | now {s s' k rest} : Reachable E w s → s.input = .key k :: rest → lookupCommand E k = .clearScreen → step E s = .ok (s', none) → Wiped E w s'
  | later {s s'} : Wiped E w s → (∀ k rest, s.input = .key k :: rest → lookupCommand E k ≠ .repaintOnNewline) → step E s = .ok (s', none) →
      Wiped E w s'

/-- Nothing is on the screen but what is in the row of the cursor, which is row `y`. -/
def OnlyRow (v : Vt) (y : Int) : Prop := v.row = y ∧ ∀ z, z ≠ y → ∀ x, v.cells z x = none

end Readline.Spec
