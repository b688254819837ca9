import Verif.Model.Shell
import Verif.Model.FileTab
/-!
# The shell of examples/example2.go

The editor of examples/example2.go:25-41 and the loop of examples/example2.go:45-66 together with the commands it starts.

Simplifications: what the program itself prints (lines 44, 49) is left out; the files do not change during one call of
`ReadLine`; the colours that go-colorable translates are taken to be written as they are.
-/
namespace Readline

/-- The loop of `strings.FieldsFunc(s, unicode.IsSpace)` (Go library); `cur`: the word that is being read, if any.  The fuel
`len(s)` suffices. -/
def fieldsLoop : Nat → Bytes → Option Bytes → List Bytes
  | 0, _, cur => cur.toList
  | n + 1, t, cur =>
    if t = [] then cur.toList
    else
      let d := decodeRune t
      if isSpaceRune d.1 then cur.toList ++ fieldsLoop n (t.drop d.2) none
      else fieldsLoop n (t.drop d.2) (some (cur.getD [] ++ t.take d.2))

/-- `strings.Fields` (Go library), used in examples/example2.go:53.  The separate loop for texts in ASCII does the same and
is left out. -/
def fields (t : Bytes) : List Bytes := fieldsLoop t.length t none

/-- The editor of examples/example2.go:25-35, without the key of lines 37-40; the prompt is `"\x1B[1;36m$ \x1B[0m"`, the colour
of the prediction `PredictColorBlueItalic` (main.go:65). -/
def tinyBase (E : Env) (history : List Bytes) : Env where
  cfg := E.cfg
  toUpper := E.toUpper
  clipSet := E.clipSet
  history := history
  historyCycling := true
  predictColor := ([0x1B, 0x5B, 0x33, 0x3B, 0x32, 0x32, 0x3B, 0x33, 0x34, 0x6D], [0x1B, 0x5B, 0x32, 0x33, 0x3B, 0x33, 0x39, 0x6D])
  coloring := vimBatch
  prompt := some fun _ => [0x1B, 0x5B, 0x31, 0x3B, 0x33, 0x36, 0x6D, 0x24, 0x20, 0x1B, 0x5B, 0x30, 0x6D]
  globalKeyMap := defaultGlobalKeyMap

/-- What the shell runs in: states `σ` with the files of each, what a command does to the state and to what the next call
of `ReadLine` finds (examples/example2.go:57-62), and how names are listed. -/
structure System (σ : Type) where
  uni : Uni
  rd : σ → ReadDir
  exec : List Bytes → σ × World → σ × World
  box : List Bytes → Bytes

/-- The editor of examples/example2.go:25-40: Ctrl-I completes file names, followed by a blank. -/
def tinyEnv (Y : System σ) (E : Env) (x : σ) (history : List Bytes) : Env :=
  bindFiles Y.uni (Y.rd x) [0x20] (some Y.box) [0x09] (tinyBase E history)

/-- The loop, examples/example2.go:45-66: the commands that are run, the history at the end, the error that ends it, and
what is left. -/
def tinyLoop (Y : System σ) (E : Env) : Nat → Container → σ × World → M (List (List Bytes) × Container × RLErr × (σ × World))
  | 0, _, x => .error ⟨.diverge, promptSt E x.2⟩
  | fuel + 1, c, x => do
    let (s, r) ← readLine (tinyEnv Y E x.1 c.buffer) x.2
    match r.err with
    | .nil =>
      match fields r.text with
      | [] => tinyLoop Y E fuel c (x.1, s.world)
      | argv =>
        let (ran, rest) ← tinyLoop Y E fuel (c.add r.text) (Y.exec argv (x.1, s.world))
        return (argv :: ran, rest)
    | err => return ([], c, err, (x.1, s.world))

end Readline
