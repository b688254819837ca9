import Verif.Model.Single
/-!
# The programs that test the widths of characters

Models test/unicodetest/main.go and test/unicodetest10/main.go, which differ in their `Tty` and in the environment variable `ZWJS`.  Not modelled: the
copy of the output in the file `output.log`; that the file cannot be made is the argument `log`.
-/
namespace Readline

/-- `"  0123456789ABCDEF\n$ "`, test/unicodetest/main.go:34 and test/unicodetest10/main.go:26. -/
def rulerPrompt : Bytes :=
  [0x20, 0x20, 0x30, 0x31, 0x32, 0x33, 0x34, 0x35, 0x36, 0x37, 0x38, 0x39, 0x41, 0x42, 0x43, 0x44, 0x45, 0x46, 0x0A, 0x24, 0x20]

/-- `SetZWJSWidthGetter` with the function of test/unicodetest/main.go:24-29, if the environment variable `ZWJS` is set. -/
def rulerCfg (zwjs : Bool) (C : Cfg) : Cfg := if zwjs then { C with zwjWidth := fun a b => if b > a then b else a } else C

/-- The editor of test/unicodetest/main.go:32-40 and test/unicodetest10/main.go:24-33. -/
def rulerEditor (zwjs : Bool) (E : Env) : Env :=
  { bareEditor E with cfg := rulerCfg zwjs E.cfg, prompt := some fun _ => rulerPrompt, coloring := vimBatch }

/-- `main`, test/unicodetest/main.go:15-54: what was read, if anything, the status, and the terminal. -/
def mainRuler (zwjs : Bool) (log : Option Bytes) (E : Env) (w : World) : M (Option RLRes × Nat × World) :=
  match log with
  | some err => return (none, 1, w.print (err ++ [0x0A]))
  | none => do
    let (s, r) ← readLine (rulerEditor zwjs E) w
    match r.err with
    | .nil => return (some r, 0, s.world.print (replyText r.text))
    | err => return (some r, 1, s.world.print (err.message ++ [0x0A]))

end Readline
