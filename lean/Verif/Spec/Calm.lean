import Verif.Spec.Joiner
import Verif.Spec.Line
import Verif.Model.ReadLine
/-!
# Conditions on sessions

Two situations make the undo log of the editor inconsistent with its line.  Theorems about
whole sessions exclude exactly these, state by state.
-/
namespace Readline.Spec

/-- Every key runs a built-in command or a completion command, or inserts itself. -/
def BuiltinKeys (E : Env) : Prop := ∀ k f, lookupCommand E k ≠ .custom f

/-- No unit but the first starts with a code point that attaches to the one before
(ZERO WIDTH JOINER, variation selector, emoji modifier).  Such a unit arises when the code point
is typed at the start of the line and something is inserted before it, and it would melt into the
unit before it whenever the text is cut into units again. -/
def Tidy (C : Cfg) (s : St) : Prop := ∀ u ∈ s.units.tail, ¬ Joins C (decodeRune u).1

/-- The next key does not exchange the last two units with the cursor at the end. -/
def NoEndSwap (E : Env) (s : St) : Prop :=
  ∀ k rest, s.input = .key k :: rest → lookupCommand E k = .swapChar →
    ¬ (s.cursor = s.len ∧ 2 ≤ s.len)

/-- Key `k` exchanges the last two units with the cursor at the end. -/
def EndSwap (E : Env) (s : St) (k : Bytes) : Prop :=
  lookupCommand E k = .swapChar ∧ s.cursor = s.len ∧ 2 ≤ s.len

/-- Neither of the two situations that break the undo log. -/
def Calm (E : Env) (s : St) : Prop := Tidy E.cfg s ∧ NoEndSwap E s

/-- The states of a session all of whose earlier states were calm. -/
inductive CalmReachable (E : Env) (w : World) : St → Prop where
  | start {s} : startSt E w = .ok s → CalmReachable E w s
  | step {s s'} : CalmReachable E w s → Calm E s → Readline.step E s = .ok (s', none) →
      CalmReachable E w s'

/-- The states of a session all of whose earlier states had no loose joiner. -/
inductive TidyReachable (E : Env) (w : World) : St → Prop where
  | start {s} : startSt E w = .ok s → TidyReachable E w s
  | step {s s'} : TidyReachable E w s → Tidy E.cfg s → Readline.step E s = .ok (s', none) →
      TidyReachable E w s'

theorem TidyReachable.of_reachable {E : Env} {w : World} {s : St}
    (hc : ∀ t, Reachable E w t → Tidy E.cfg t) (h : Reachable E w s) : TidyReachable E w s := by
  induction h with
  | start h => exact .start h
  | step h h' ih => exact .step ih (hc _ h) h'

theorem CalmReachable.reachable {E : Env} {w : World} {s : St} (h : CalmReachable E w s) :
    Reachable E w s := by
  induction h with
  | start h => exact .start h
  | step _ _ h ih => exact .step ih h

theorem CalmReachable.of_reachable {E : Env} {w : World} {s : St}
    (hc : ∀ t, Reachable E w t → Calm E t) (h : Reachable E w s) : CalmReachable E w s := by
  induction h with
  | start h => exact .start h
  | step h h' ih => exact .step ih (hc _ h) h'

end Readline.Spec
