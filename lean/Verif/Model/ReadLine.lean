import Verif.Model.KeyMap
/-!
# ReadLine

Models `(*Editor).ReadLine`, main.go:161-250, as a start state and a step function; the
mutex makes a resize callback and a command atomic with respect to each other (this is
justified by the two-thread model in `Model/Threads.lean`).
-/
namespace Readline

/-- The error `ReadLine` returns: nil, `CtrlC`, `io.EOF` or the error of the Tty. -/
inductive RLErr where
  | nil | ctrlC | eof | tty (e : Bytes)
deriving Repr, DecidableEq

/-- The values returned by `ReadLine`. -/
structure RLRes where
  text : Bytes
  err : RLErr
deriving Repr, DecidableEq

/-- What `ReadLine` finds when it is called: the `Cursor` field left by earlier calls, the
clipboard, the terminal width, the events to come, and the output so far. -/
structure World where
  cursor : Int := 0
  clip : Option Bytes := none
  termWidth : Int := 80
  input : List Ev := []
  out : List Tok := []
  promptN : Nat := 0

/-- The state after printing the prompt, main.go:168-203. -/
def promptSt (E : Env) (w : World) : St :=
  let s : St := { cursor := w.cursor, clip := w.clip, termWidth := w.termWidth, input := w.input,
                  out := w.out, promptN := w.promptN, histPtr := E.histLen }
  let (top, s) := callPromptWriter E s
  match E.promptErr with
  | some e => { s.emit (.lit (e ++ [0x0A, 0x24, 0x20])) with topColumn := 2 }
  | none =>
    if top ≥ s.termWidth - 3 then { s.emit (.lit [0x0A]) with topColumn := 0 }
    else { s with topColumn := top }

/-- main.go:204-210: the state when the loop is entered. -/
def startSt (E : Env) (w : World) : M St := do
  let (s, _) ← insertString E (promptSt E w) 0 E.default
  let s := if s.cursor > s.len then { s with cursor := s.len } else s
  let s ← repaintAfterPrompt E s
  return s.emit .cursorOn

/-- The closure `onResize`, main.go:175-181. -/
def onResize (E : Env) (s : St) (w : Int) : M St :=
  repaintLastLine E (resetViewStart E { s with termWidth := w })

/-- The deferred function, main.go:163-166. -/
def deferred (s : St) : St := (s.emit .cursorOn).emit .flush

/-- main.go:226-247: what happens when a command ends the editing. -/
def finish (E : Env) (s : St) (rc : Result) : M (St × RLRes) := do
  let s ← (match s.suffix with
    | some _ => repaintNoSuffix E { s with suffix := none }
    | none => pure s)
  let s := match E.lineFeed with
    | some f => s.emit (.lit (f rc))
    | none => s.emit (.lit [0x0A])
  let s := s.emit .flush
  let text := s.text
  let err := match rc with
    | .enter => RLErr.nil
    | .intr => .ctrlC
    | _ => .eof
  return (deferred s, { text := text, err := err })

/-- Executing one command, main.go:216-248; `some r` when `ReadLine` returns `r`. -/
def execCmd (E : Env) (cmd : Cmd) (s : St) : M (St × Option RLRes) := do
  let s := s.emit .cursorOff
  let (s, rc) ← Cmd.call E cmd s
  let s := s.emit .cursorOn
  match rc with
  | .cont => return (s, none)
  | rc =>
    let (s, r) ← finish E s rc
    return (s, some r)

/-- One step of the session: the next event is a resize (handled by the resize goroutine
between two commands), a Tty error, or a key; no more events is end of file. -/
def step (E : Env) (s : St) : M (St × Option RLRes) :=
  match s.input with
  | [] => return (deferred (s.emit .await), some { text := [], err := .tty [] })
  | .err e :: rest =>
    return (deferred { s.emit .await with input := rest }, some { text := [], err := .tty e })
  | .resize w :: rest => do
    let s ← onResize E { s with input := rest } w
    return (s, none)
  | .key k :: rest => execCmd E (lookupCommand E k) { s.emit .await with input := rest }

/-- The loop of `ReadLine`, main.go:211-249.  Every step consumes an event, so the fuel
`input.length + 1` suffices. -/
def loop (E : Env) : Nat → St → M (St × RLRes)
  | 0, s => .error ⟨.diverge, s⟩
  | fuel + 1, s => do
    match ← step E s with
    | (s, some r) => return (s, r)
    | (s, none) => loop E fuel s

/-- `(*Editor).ReadLine`, main.go:161-250, after `Tty.Open` and `Tty.Size` succeeded. -/
def readLine (E : Env) (w : World) : M (St × RLRes) := do
  let s ← startSt E w
  loop E (s.input.length + 1) s

/-- `(*Editor).ReadLine` including the failures of `Tty.Open` and `Tty.Size`
(main.go:183-192): the error is returned with an empty string. -/
def readLineFull (E : Env) (openErr sizeErr : Option Bytes) (w : World) : M (List Tok × RLRes) :=
  match openErr with
  | some e => return (w.out ++ [.cursorOn, .flush], { text := [], err := .tty e })
  | none =>
    match sizeErr with
    | some e => return (w.out ++ [.cursorOn, .flush], { text := [], err := .tty e })
    | none => do
      let (s, r) ← readLine E w
      return (s.out, r)

/-- The states a session can be in when a key is awaited: the start state and everything
reached by whole steps. -/
inductive Reachable (E : Env) (w : World) : St → Prop where
  | start {s} : startSt E w = .ok s → Reachable E w s
  | step {s s'} : Reachable E w s → step E s = .ok (s', none) → Reachable E w s'

end Readline
