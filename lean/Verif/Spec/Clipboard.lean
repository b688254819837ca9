import Verif.Spec.Calm
import Verif.Spec.Split
import Verif.Model.Shell
/-!
# What was cut
-/
namespace Readline.Spec

/-- Commands that cut. -/
def cuts : Cmd → Bool
  | .killLine | .unixLineDiscard | .unixWordRubout => true
  | _ => false

/-- The command takes `m` out of a line whose cursor divides it into `l` and `r`, leaving `a` before
the cursor and `z` after it.  Which part it is for a word is said in C15. -/
def CutsOut (c : Cmd) (l r a m z : List Bytes) : Prop :=
  match c with
  | .killLine => a = l ∧ m = r ∧ z = []
  | .unixLineDiscard => a = [] ∧ m = l ∧ z = r
  | .unixWordRubout => l = a ++ m ∧ z = r
  | _ => False

/-- A session that has reached `s`, and the texts that were cut so far, the last one first: for a
key that cuts, the text that was on the line before and is not there afterwards. -/
inductive Cuts (E : Env) (w : World) : St → List Bytes → Prop where
  | start {s} : startSt E w = .ok s → Cuts E w s []
  | resize {s s' n rest ts} : Cuts E w s ts → s.input = .resize n :: rest → step E s = .ok (s', none) →
      Cuts E w s' ts
  | key {s s' k rest ts} : Cuts E w s ts → s.input = .key k :: rest → cuts (lookupCommand E k) = false →
      step E s = .ok (s', none) → Cuts E w s' ts
  | cut {s s' k rest ts l r a m z} : Cuts E w s ts → s.input = .key k :: rest → step E s = .ok (s', none) →
      At s l r → CutsOut (lookupCommand E k) l r a m z → At s' a z → Cuts E w s' (m.flatten :: ts)

/-- A program has called `ReadLine` on the same editor some times, each time with whatever history, and the next call
will find `w`; the texts that were cut, the last one first. -/
inductive CutInCalls (E : Env) (w0 : World) : World → List Bytes → Prop where
  | start : CutInCalls E w0 w0 []
  | call {w s s' r ts us} {lines : List Bytes} : CutInCalls E w0 w ts → Cuts { E with history := lines } w s us →
      step { E with history := lines } s = .ok (s', some r) → CutInCalls E w0 s'.world (us ++ ts)

end Readline.Spec
