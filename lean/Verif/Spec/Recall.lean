import Verif.Spec.Calm
import Verif.Spec.Undo
/-!
# The lines of a session that Undo has to bring back

`Remembers` follows a session with the rules of `Snap`.  `Regains` does the same but knows that an
exchange of the last two units with the cursor at the end of the line leaves an entry that no Undo
can use: nothing before it comes back.
-/
namespace Readline
open Spec

/-- `Remembers E w s stk`: the session has reached `s` and Undo has to bring back `stk`. -/
inductive Spec.Remembers (E : Env) (w : World) : St → List (List Bytes) → Prop where
  | start {s} : startSt E w = .ok s → Remembers E w s [[]]
  | resize {s s' stk n rest} : Remembers E w s stk → s.input = .resize n :: rest →
      step E s = .ok (s', none) → Remembers E w s' stk
  | key {s s' stk stk' k rest} : Remembers E w s stk → s.input = .key k :: rest →
      step E s = .ok (s', none) → Snap (lookupCommand E k) s.units stk s'.units stk' →
      Remembers E w s' stk'

/-- `n` Undo keys, and any resizes between them, lead from the first state to the second. -/
inductive Spec.Undos (E : Env) (s : St) : Nat → St → Prop where
  | none : Undos E s 0 s
  | resize {n t t' x rest} : Undos E s n t → t.input = .resize x :: rest →
      step E t = .ok (t', none) → Undos E s n t'
  | undo {n t t' k rest} : Undos E s n t → t.input = .key k :: rest → lookupCommand E k = .undo →
      step E t = .ok (t', none) → Undos E s (n + 1) t'

/-- `Regains E w s stk stuck`: the session has reached `s`, Undo has to bring back `stk`, and, if
`stuck`, nothing beyond, because there is an exchange at the end of the line in the way. -/
inductive Spec.Regains (E : Env) (w : World) : St → List (List Bytes) → Bool → Prop where
  | start {s} : startSt E w = .ok s → Regains E w s [[]] false
  | resize {s s' stk stuck n rest} : Regains E w s stk stuck → s.input = .resize n :: rest →
      step E s = .ok (s', none) → Regains E w s' stk stuck
  | key {s s' stk stk' stuck k rest} : Regains E w s stk stuck → s.input = .key k :: rest →
      step E s = .ok (s', none) → ¬ EndSwap E s k → (lookupCommand E k = .undo → stuck = true → stk ≠ []) →
      Snap (lookupCommand E k) s.units stk s'.units stk' → Regains E w s' stk' stuck
  | swap {s s' stk stuck k rest} : Regains E w s stk stuck → s.input = .key k :: rest →
      step E s = .ok (s', none) → EndSwap E s k → Regains E w s' [] true

end Readline
