import Verif.Model.GetKey
import Verif.Model.ReadLine
/-!
# A program that calls ReadLine on a Tty

The Tty (`ITty`, main.go:32-37) outlives the calls of `ReadLine`: what it has buffered is there for
the next call.  So does the field `Cursor` of the `Editor`.
-/
namespace Readline

/-- The method `GetKey` of an `ITty`, main.go:34. -/
structure Device where
  /-- the terminal and what is buffered -/
  σ : Type
  getKey : σ → Except Bytes Bytes × σ

/-- The answers of `n` calls of `GetKey`. -/
def Device.calls (D : Device) : Nat → D.σ → List (Except Bytes Bytes) × D.σ
  | 0, t => ([], t)
  | n + 1, t =>
    let (a, t) := D.getKey t
    let (as, t) := D.calls n t
    (a :: as, t)

/-- tty10, tty10/main.go:62-80. -/
def tty10Device : Device := ⟨Tty10, Tty10.getKey⟩

/-- The Tty of the package itself, tty8.go:40-51 (`none` does not occur, see `C22_getKeys_total`). -/
def tty8Device : Device := ⟨Tty8, fun t => t.getKey.getD (.error [], t)⟩

/-- `auto.Pilot`, auto/main.go:11-18. -/
def pilotDevice : Device := ⟨List Bytes, fun t => (.ok (pilotGetKey t).1, (pilotGetKey t).2)⟩

/-- An answer of `GetKey` as an event of the session, main.go:212-215. -/
def answerEv : Except Bytes Bytes → Ev
  | .ok k => .key k
  | .error e => .err e

end Readline
