import Verif.Spec.Browse
import Verif.Spec.Split
import Verif.Spec.Segment
import Verif.Props.C09
import Verif.Props.C14
import Verif.Props.C16
/-!
# What the ten keys of examples/example3.go are for

The effect of each key on the two halves of the line around the cursor.
-/
namespace Readline.Spec

/-- The keys: E, X, S, D lie around each other on the keyboard, A and F further out. -/
inductive Wordstar (E : Env) (s s' : St) (l r : List Bytes) : UInt8 → Prop where
  /-- Ctrl-S: one unit back -/
  | left : s'.cursor = s.cursor - min 1 l.length → SameText s { s' with input := s.input } → Wordstar E s s' l r 0x13
  /-- Ctrl-D: one unit forward -/
  | right : s'.cursor = s.cursor + min 1 r.length → SameText s { s' with input := s.input } → Wordstar E s s' l r 0x04
  /-- Ctrl-A: to the start of the word -/
  | wordLeft {a v z} : BackTo SeenBlank l a v z → At s' a (v ++ z ++ r) → SameText s { s' with input := s.input } →
      Wordstar E s s' l r 0x01
  /-- Ctrl-F: to the start of the next word -/
  | wordRight {v z b} : ForthTo SeenBlank r v z b → At s' (l ++ v ++ z) b → SameText s { s' with input := s.input } →
      Wordstar E s s' l r 0x06
  /-- Ctrl-E: to the line before, if there is one -/
  | up : s'.histPtr = max 0 (s.histPtr - 1) → (s'.histPtr = s.histPtr → At s' l r) →
      (s'.histPtr ≠ s.histPtr → At s' (unitsOf E.cfg (shown E s s'.histPtr)) []) → Wordstar E s s' l r 0x05
  /-- Ctrl-X: to the line after, the one being entered included -/
  | down : s'.histPtr = min (E.history.length : Int) (s.histPtr + 1) → (s'.histPtr = s.histPtr → At s' l r) →
      (s'.histPtr ≠ s.histPtr → At s' (unitsOf E.cfg (shown E s s'.histPtr)) []) → Wordstar E s s' l r 0x18
  /-- Ctrl-G: delete the unit at the cursor -/
  | delete : At s' l r.tail → s'.clip = s.clip → Wordstar E s s' l r 0x07
  /-- Ctrl-B, Ctrl-P, Ctrl-N: the control character is inserted, with a waiting joiner before it if there is one -/
  | insert {k} : k = 0x02 ∨ k = 0x10 ∨ k = 0x0E → At s' (l ++ unitsOf E.cfg (s.pending ++ [k])) r → Wordstar E s s' l r k

end Readline.Spec
