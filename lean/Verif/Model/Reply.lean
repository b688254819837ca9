import Verif.Model.Shell
import Verif.Model.Wordstar
import Verif.Model.Trim
import Verif.Model.Tiny
/-!
# A program that reads lines and says what it has read

Models examples/example3.go:34-43, examples/example160.go:32-40 and examples/example2.go:43-66 with what they print: `fmt.Printf` writes to standard
output, which is also where the editor writes (main.go:133-135); `ReadLine` has flushed its buffer when it returns
(main.go:164-166).  As in `Model/Shell` the size of the terminal does not change between two calls.
-/
namespace Readline

/-- `fmt.Printf` between two calls. -/
def World.print (w : World) (b : Bytes) : World := { w with out := w.out ++ [.lit b] }

/-- `err.Error()`: main.go:68, `io.EOF`, or what the Tty reported. -/
def RLErr.message : RLErr → Bytes
  | .nil => []
  | .ctrlC => [0x5E, 0x43]
  | .eof => [0x45, 0x4F, 0x46]
  | .tty e => e

/-- example3.go:40, `"TEXT=%s\n"`. -/
def replyText (text : Bytes) : Bytes := [0x54, 0x45, 0x58, 0x54, 0x3D] ++ text ++ [0x0A]

/-- example3.go:37, `"ERR=%s\n"`. -/
def replyErr (err : RLErr) : Bytes := [0x45, 0x52, 0x52, 0x3D] ++ err.message ++ [0x0A]

/-- The loop, example3.go:34-43 and example160.go:32-40. -/
def replyLines (E : Env) (keep : Bytes → Bool) : Nat → Container → World → M (Container × RLErr × World)
  | 0, _, w => .error ⟨.diverge, promptSt E w⟩
  | fuel + 1, c, w => do
    let (s, r) ← readLine { E with history := c.buffer } w
    match r.err with
    | .nil => replyLines E keep fuel (if keep r.text then c.add r.text else c) (s.world.print (replyText r.text))
    | err => return (c, err, s.world.print (replyErr err))

/-- `main` of examples/example3.go. -/
def example3 (E : Env) (w : World) : M (Container × RLErr × World) :=
  replyLines (wordstar E) (fun _ => true) (w.input.length + 1) {} w

/-- The editor of examples/example160.go:25-30: nothing but the history and what concerns the predictions is set. -/
def foreseeing (E : Env) : Env :=
  example160 { cfg := E.cfg, history := [], toUpper := E.toUpper, clipSet := E.clipSet, globalKeyMap := defaultGlobalKeyMap } []

/-- `main` of examples/example160.go. -/
def main160 (E : Env) (w : World) : M (Container × RLErr × World) :=
  replyLines (foreseeing E) (fun _ => true) (w.input.length + 1) {} w

/-- examples/example2.go:43, `"Tiny Shell. Type Ctrl-D to quit."` and a line feed. -/
def tinyBanner : Bytes :=
  [0x54, 0x69, 0x6E, 0x79, 0x20, 0x53, 0x68, 0x65, 0x6C, 0x6C, 0x2E, 0x20, 0x54, 0x79, 0x70, 0x65, 0x20, 0x43, 0x74,
   0x72, 0x6C, 0x2D, 0x44, 0x20, 0x74, 0x6F, 0x20, 0x71, 0x75, 0x69, 0x74, 0x2E, 0x0A]

/-- `main` of examples/example2.go: the loop is `tinyLoop`; what is printed at the end is line 49. -/
def main2 (Y : System σ) (E : Env) (x : σ × World) : M (List (List Bytes) × Container × RLErr × (σ × World)) := do
  let (ran, c, err, y) ← tinyLoop Y E (x.2.input.length + 1) {} (x.1, x.2.print tinyBanner)
  return (ran, c, err, (y.1, y.2.print (replyErr err)))

end Readline
