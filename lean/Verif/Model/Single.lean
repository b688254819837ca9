import Verif.Model.Reply
import Verif.Model.Own
import Verif.Model.FileTab
/-!
# Programs that read one line

Models examples/example1.go:12-20, examples/example4.go:63-83, completion/example.go:14-37, and the programs of test/color-sgr and
test/color-default-symbol with what they print; see `Model/Reply`
for the two writers.  `println` (completion/example.go:29 and 35) writes to standard error, which is taken to be the same terminal.
-/
namespace Readline

/-- `var editor readline.Editor`, examples/example1.go:13: the functions of strings are those of `E`, and nothing is set. -/
def bareEditor (E : Env) : Env :=
  { cfg := E.cfg, history := [], toUpper := E.toUpper, clipSet := E.clipSet, globalKeyMap := defaultGlobalKeyMap }

/-- `"TEXT=%s\n"` or `"ERR=%s\n"`, examples/example1.go:15-19 and examples/example4.go:78-82. -/
def verdict (r : RLRes) : Bytes :=
  match r.err with
  | .nil => replyText r.text
  | err => replyErr err

/-- `main` of examples/example1.go. -/
def main1 (E : Env) (w : World) : M (RLRes × World) := do
  let (s, r) ← readLine (bareEditor E) w
  return (r, s.world.print (verdict r))

/-- The editor of test/color-sgr/main.go:46-48 and test/color-default-symbol/main.go:46-48. -/
def huedEditor (K : Coloring) (E : Env) : Env := { bareEditor E with coloring := K }

/-- `main` of test/color-sgr/main.go:45-55 and test/color-default-symbol/main.go:45-55, which differ in their `Coloring` (`Model/Misc`). -/
def mainHued (K : Coloring) (E : Env) (w : World) : M (RLRes × World) := do
  let (s, r) ← readLine (huedEditor K E) w
  return (r, s.world.print (verdict r))

/-- The editor of examples/example4.go:64-68: the prompt. -/
def promptedEditor (E : Env) : Env := { bareEditor E with prompt := some fun _ => [0x0D, 0x3E, 0x20] }

/-- The editor of examples/example4.go:64-74: Escape is bound to the command that starts a text editor. -/
def editingEditor (edit : Bytes → Option Bytes) (E : Env) : Env :=
  { promptedEditor E with keyMap := some fun x =>
      if x = [0x1B] then some (.custom ((startEditor edit).run (promptedEditor E))) else KeyMap.lookup (promptedEditor E).keyMap x }

/-- `"ENTER_STATUS=%d\n"` with the number 0, examples/example4.go:70 and 77. -/
def statusLine : Bytes :=
  [0x45, 0x4E, 0x54, 0x45, 0x52, 0x5F, 0x53, 0x54, 0x41, 0x54, 0x55, 0x53, 0x3D, 0x30, 0x0A]

/-- `main` of examples/example4.go. -/
def main4 (edit : Bytes → Option Bytes) (E : Env) (w : World) : M (RLRes × World) := do
  let (s, r) ← readLine (editingEditor edit E) w
  return (r, (s.world.print statusLine).print (verdict r))

/-- `println("TEXT:", text)` and `println("ERR:", err.Error())`, completion/example.go:29 and 35. -/
def verdictErr (r : RLRes) : Bytes :=
  match r.err with
  | .nil => [0x54, 0x45, 0x58, 0x54, 0x3A, 0x20] ++ r.text ++ [0x0A]
  | err => [0x45, 0x52, 0x52, 0x3A, 0x20] ++ err.message ++ [0x0A]

/-- `main` of completion/example.go. -/
def mainFiles (U : Uni) (rd : ReadDir) (box : List Bytes → Bytes) (E : Env) (w : World) : M (RLRes × World) := do
  let (s, r) ← readLine (bindFiles U rd [] (some box) [0x09] (bareEditor E)) w
  return (r, s.world.print (verdictErr r))

/-- `bytes.TrimSuffix(update, []byte{b})`. -/
def trimSuffix (b : UInt8) (t : Bytes) : Bytes :=
  match t.getLast? with
  | some c => if c = b then t.dropLast else t
  | none => t

/-- `startEditor`, examples/example4.go:19-49.  `run` is what the text editor makes of the file: `none` when `EDITOR` is not set, the file cannot
be made or read, or the program fails. -/
def runEditor (run : Bytes → Option Bytes) (source : Bytes) : Option Bytes :=
  match run source with
  | none => none
  | some update => some (trimSuffix 0x0D (trimSuffix 0x0A update))

end Readline
