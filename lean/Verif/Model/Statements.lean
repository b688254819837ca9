import Verif.Model.Threads
/-!
# The code of the goroutines, statement by statement

One way to cut the code of `ReadLine` into steps: every statement of main.go:177-179, 194-208 and
218-234 is a step.  It shows that the assumption `Faithful` on the way the code is cut can be met.
-/
namespace Readline

/-- A list of statements, one after the other. -/
def stepList : List (St → M St) → St → M (St × (List (St → M St) ⊕ Unit))
  | [], s => .ok (s, .inr ())
  | f :: fs, s => do
    let s ← f s
    match fs with
    | [] => return (s, .inr ())
    | _ => return (s, .inl fs)

/-- The statements of main.go:194-210. -/
def startStmts (E : Env) : List (St → M St) :=
  [ fun s =>
      let (top, s) := callPromptWriter E s
      .ok (match E.promptErr with
        | some e => { s.emit (.lit (e ++ [0x0A, 0x24, 0x20])) with topColumn := 2 }
        | none =>
          if top ≥ s.termWidth - 3 then { s.emit (.lit [0x0A]) with topColumn := 0 }
          else { s with topColumn := top }),
    fun s => do
      let (s, _) ← insertString E s 0 E.default
      return s,
    fun s => .ok (if s.cursor > s.len then { s with cursor := s.len } else s),
    fun s => repaintAfterPrompt E s,
    fun s => .ok (s.emit .cursorOn) ]

/-- What is left of a command. -/
inductive CmdPc where
  /-- main.go:220 -/
  | off (k : Bytes)
  /-- main.go:222 -/
  | call (k : Bytes)
  /-- main.go:224 -/
  | on (rc : Result)
  /-- main.go:226-247 -/
  | finish (rc : Result)

/-- The statements of main.go:218-247. -/
def stepCmd (E : Env) : CmdPc → St → M (St × (CmdPc ⊕ Option RLRes))
  | .off k, s => .ok (s.emit .cursorOff, .inl (.call k))
  | .call k, s => do
    let (s, rc) ← Cmd.call E (lookupCommand E k) s
    return (s, .inl (.on rc))
  | .on rc, s =>
    match rc with
    | .cont => .ok (s.emit .cursorOn, .inr none)
    | rc => .ok (s.emit .cursorOn, .inl (.finish rc))
  | .finish rc, s => do
    let (s, r) ← finishLocked E s rc
    return (s, .inr (some r))

/-- What is left of the callback. -/
inductive BackPc where
  /-- main.go:177 -/
  | width (w : Int)
  /-- main.go:178 -/
  | view
  /-- main.go:179 -/
  | paint

/-- The statements of main.go:177-179. -/
def stepBack (E : Env) : BackPc → St → M (St × (BackPc ⊕ Unit))
  | .width w, s => .ok ({ s with termWidth := w }, .inl .view)
  | .view, s => .ok (resetViewStart E s, .inl .paint)
  | .paint, s => do
    let s ← repaintLastLine E s
    return (s, .inr ())

/-- Statement by statement. -/
def stmts (E : Env) : Code where
  A := List (St → M St)
  L := CmdPc
  R := BackPc
  begin := startStmts E
  start := stepList
  enter := .off
  body := stepCmd E
  call := .width
  back := stepBack E

end Readline
