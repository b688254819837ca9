import Verif.Model.Output
import Verif.Model.Shell
/-!
# Output that fails

`ReadLine` with `Out` in front of a terminal that may stop taking bytes.  The error of a write is looked at
in one place only, main.go:194-198, for the prompt; everywhere else it is dropped (main.go:164-165, 201, 210,
220, 224, 232-236, buffer.go:249-265, repaints.go:54-75, 109, 127, gommand.go:299-317, 444, isearch.go:48-58).
`ColorSequence.WriteTo`, color.go:101-128, stops early when a write fails; then `Out` has failed and
drops what follows anyway (`bufio.Writer` keeps its first error).
-/
namespace Readline

/-- The bytes of the prompt, main.go:117-124. -/
def promptBytes (E : Env) (n : Nat) : Bytes :=
  match E.prompt with
  | none => [0x0A, 0x3E, 0x20]
  | some p => p n

/-- `callPromptWriter` returns an error if `Out` has failed after the prompt was written to it; `msg` is
the text of that error, main.go:194-197. -/
def Env.on (E : Env) (msg : Bytes) (W : Writer) (n : Nat) : Env :=
  { E with promptErr := if (W.write (promptBytes E n)).failed then some msg else none }

/-- `ReadLine`, main.go:161-250, with the output `W`: the output afterwards, the state and what is
returned. -/
def readLineOn (E : Env) (msg : Bytes) (W : Writer) (w : World) : M (Writer × St × RLRes) := do
  let (s, r) ← readLine (E.on msg W w.promptN) { w with out := [] }
  return (W.run E.cfg s.out, s, r)

/-- `n` calls of `ReadLine` on one editor. -/
def linesOn (E : Env) (msg : Bytes) : Nat → Writer → World → M (Writer × List RLRes)
  | 0, W, _ => return (W, [])
  | n + 1, W, w => do
    let (W, s, r) ← readLineOn E msg W w
    let (W, rs) ← linesOn E msg n W s.world
    return (W, r :: rs)

end Readline
