import Verif.Spec.Calm
import Verif.Spec.Undo
import Verif.Model.Own
/-!
# Rules for own commands

Which calls an own command may make in which state so that the editor stays sound.
-/
namespace Readline.Spec

/-- The cursor is inside the line. -/
def OnLine (s : St) : Prop := 0 ≤ s.cursor ∧ s.cursor ≤ s.buf.length

/-- Cursor and scroll offset are inside the line. -/
def Placed (s : St) : Prop := 0 ≤ s.viewStart ∧ s.viewStart ≤ s.cursor ∧ s.cursor ≤ s.buf.length

/-- The rules. -/
def Allowed (C : Cfg) : Api → St → Prop
  -- positions have to be positions of the line
  | .insertString pos _, s => 0 ≤ pos ∧ pos ≤ s.buf.length
  | .delete pos _, s => 0 ≤ pos ∧ Tidy C s
  | .getWidthBetween a b, s | .subString a b, s => 0 ≤ a ∧ a ≤ b ∧ b ≤ s.buf.length
  -- so has the cursor for everything that is done at the cursor
  | .currentWordTop, s | .currentWord, s | .repaintAfterPrompt, s | .insertAndRepaint _, s => OnLine s
  | .replaceAndRepaint pos _, s => 0 ≤ pos ∧ pos ≤ s.cursor ∧ OnLine s ∧ Tidy C s
  -- and what is drawn has to begin before the cursor
  | .drawFromHead, s | .repaintAll, s | .repaintLastLine, s => Placed s
  -- a command may expect what it would find when called by a key
  | .call c, s => (∀ f, c ≠ .custom f) ∧ Placed s ∧ Tidy C s ∧
      (c = .swapChar → ¬ (s.cursor = s.buf.length ∧ 2 ≤ s.buf.length))
  -- the line is never assigned
  | .setBuffer _, _ => False
  | .resetViewStart, _ | .getKey, _ | .gotoHead, _ | .setCursor _, _ | .setViewStart _, _
  | .write _, _ => True

/-- Every call the program makes, when started in the state, is allowed, and it leaves cursor and
scroll offset inside the line. -/
def Obeys (E : Env) : Own → St → Prop
  | .ret _, s => Placed s
  | .look next, s => Obeys E (next s) s
  | .act a next, s => Allowed E.cfg a s ∧ ∀ s' r, a.run E s = .ok (s', r) → Obeys E (next r) s'

/-- The program follows the rules whenever a key can start it. -/
def Lawful (E : Env) (p : Own) : Prop := ∀ s, Placed s → Tidy E.cfg s → Obeys E p s

/-- Every key runs a built-in command, a completion command or a lawful own command, or inserts
itself. -/
def LawfulKeys (E : Env) : Prop :=
  ∀ k f, lookupCommand E k = .custom f → ∃ p, f = Own.run E.own p ∧ Lawful E.own p

/-- The call changes the line. -/
def edits : Api → Prop
  | .insertString .. | .delete .. | .insertAndRepaint _ | .replaceAndRepaint .. => True
  | _ => False

/-- `ActSnap a l stk l' stk'`: the call changed the line from `l` to `l'` and the earlier lines that
Undo will bring back from `stk` to `stk'`. -/
inductive ActSnap {α : Type} (a : Api) (l : List α) (stk : List (List α)) (l' : List α) :
    List (List α) → Prop where
  /-- the line is the same -/
  | keep : (∀ c, a ≠ .call c) → (edits a → ∃ p n, a = .delete p n) → l' = l → ActSnap a l stk l' stk
  /-- the old line is remembered -/
  | push : edits a → ActSnap a l stk l' (l :: stk)
  /-- text inserted where text was just deleted is undone together with the deletion -/
  | merge : ((∃ t, a = .insertAndRepaint t) ∨ ∃ p t, a = .replaceAndRepaint p t) → stk ≠ [] →
      (∃ p t, l' = l.take p ++ t ++ l.drop p) → ActSnap a l stk l' stk
  /-- what the command does when a key starts it -/
  | call {c stk'} : a = .call c → Snap c l stk l' stk' → ActSnap a l stk l' stk'

/-- What the calls of a program together do to the earlier lines; `f` says what counts as a line. -/
inductive OwnSnap {α : Type} (E : Env) (f : St → List α) :
    Own → St → List (List α) → St → List (List α) → Prop where
  | ret {r s stk} : OwnSnap E f (.ret r) s stk s stk
  | look {next s stk s' stk'} : OwnSnap E f (next s) s stk s' stk' →
      OwnSnap E f (.look next) s stk s' stk'
  | act {a next s stk s1 r stk1 s' stk'} : a.run E s = .ok (s1, r) →
      ActSnap a (f s) stk (f s1) stk1 → OwnSnap E f (next r) s1 stk1 s' stk' →
      OwnSnap E f (.act a next) s stk s' stk'

end Readline.Spec
