import Verif.Model.ReadLine
import Verif.Model.Misc
/-!
# A program that reads lines

Models the loops of examples/example3.go:34-43, examples/example160.go:32-40 and
examples/example2.go:45-66: `ReadLine` is called again and again on the same editor, a line that
comes back without an error is added to the history, and an error ends the program.

Simplifications: what the program itself prints and the command that example2 starts are left
out; the size of the terminal does not change between two calls; events that arrive between two calls are
seen by the next one.
-/
namespace Readline

/-- What the next call of `ReadLine` finds: the fields `Cursor` and the clipboard that belong to
the editor and not to the call. -/
def St.world (s : St) : World where
  cursor := s.cursor
  clip := s.clip
  termWidth := s.termWidth
  input := s.input
  out := s.out
  promptN := s.promptN

/-- The loop; `keep` says which lines are added (example2.go:53-56 does not add lines without
words, example3.go and example160.go add all).  A line takes at least one event, so the fuel
`input.length + 1` suffices. -/
def readLines (E : Env) (keep : Bytes → Bool) : Nat → Container → World → M (Container × RLErr × World)
  | 0, _, w => .error ⟨.diverge, promptSt E w⟩
  | fuel + 1, c, w => do
    let (s, r) ← readLine { E with history := c.buffer } w
    match r.err with
    | .nil => readLines E keep fuel (if keep r.text then c.add r.text else c) s.world
    | err => return (c, err, s.world)

/-- The program of example3.go:34-43. -/
def program (E : Env) (keep : Bytes → Bool) (w : World) : M (Container × RLErr × World) :=
  readLines E keep (w.input.length + 1) {} w

end Readline
