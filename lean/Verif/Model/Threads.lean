import Verif.Model.ReadLine
/-!
# The two goroutines of `ReadLine`

Models main.go:161-250 (the editing goroutine, the mutex and the closure `onResize`) together with
the resize goroutines of tty8.go:15-38 and tty10/main.go:17-42 and `Close`, tty10/main.go:79-89.

Every step of a goroutine is atomic and the steps of the goroutines interleave in any order
(sequential consistency is assumed).  How the code of a command, of the callback and of the start of
`ReadLine` is cut into steps is left open: `Code` is any way to cut it.  So nothing below relies on
a command being one step.

The widths the terminal reports are arbitrary, and the ticker may fire at any time, so the steps of
the watcher cover both tty8.go (a signal, compared with the last width) and tty10 (a timer).
-/
namespace Readline

/-- The `Buffer` literal of `ReadLine`, main.go:168-173, with `editor.Cursor` as it was left; the
width is not known yet. -/
def bufferSt (E : Env) (w : World) : St :=
  { cursor := w.cursor, clip := w.clip, termWidth := 0, input := w.input,
    out := w.out, promptN := w.promptN, histPtr := E.histLen }

/-- main.go:194-210 after `termWidth` was set: the prompt, the default text, the first painting. -/
def startFrom (E : Env) (s : St) : M St := do
  let (top, s) := callPromptWriter E s
  let s := match E.promptErr with
    | some e => { s.emit (.lit (e ++ [0x0A, 0x24, 0x20])) with topColumn := 2 }
    | none =>
      if top ≥ s.termWidth - 3 then { s.emit (.lit [0x0A]) with topColumn := 0 }
      else { s with topColumn := top }
  let (s, _) ← insertString E s 0 E.default
  let s := if s.cursor > s.len then { s with cursor := s.len } else s
  let s ← repaintAfterPrompt E s
  return s.emit .cursorOn

/-- main.go:226-236: what is done inside the mutex when a command ends the editing. -/
def finishLocked (E : Env) (s : St) (rc : Result) : M (St × RLRes) := do
  let s ← (match s.suffix with
    | some _ => repaintNoSuffix E { s with suffix := none }
    | none => pure s)
  let s := match E.lineFeed with
    | some f => s.emit (.lit (f rc))
    | none => s.emit (.lit [0x0A])
  let s := s.emit .flush
  let text := s.text
  let err := match rc with
    | .enter => RLErr.nil
    | .intr => .ctrlC
    | _ => .eof
  return (s, { text := text, err := err })

/-- What is done inside the mutex for the key `k`, main.go:218-247. -/
def lockedPart (E : Env) (k : Bytes) (s : St) : M (St × Option RLRes) := do
  let s := s.emit .cursorOff
  let (s, rc) ← Cmd.call E (lookupCommand E k) s
  let s := s.emit .cursorOn
  match rc with
  | .cont => return (s, none)
  | rc =>
    let (s, r) ← finishLocked E s rc
    return (s, some r)

/-- What is done inside the mutex for a new width, main.go:177-179. -/
def resizePart (E : Env) (w : Int) (s : St) : M (St × Unit) := do
  let s ← onResize E s w
  return (s, ())

/-- The code of the two goroutines, cut into steps in any way: a step changes the memory and ends
with the rest of the code or with the result. -/
structure Code where
  /-- rest of the start code -/
  A : Type
  /-- rest of a command -/
  L : Type
  /-- rest of a callback -/
  R : Type
  begin : A
  start : A → St → M (St × (A ⊕ Unit))
  enter : Bytes → L
  body : L → St → M (St × (L ⊕ Option RLRes))
  call : Int → R
  back : R → St → M (St × (R ⊕ Unit))

/-- Running a piece of code to its end, undisturbed. -/
inductive Runs {α β : Type} (f : α → St → M (St × (α ⊕ β))) : α → St → M (St × β) → Prop where
  | more {a a' s s' x} : f a s = .ok (s', .inl a') → Runs f a' s' x → Runs f a s x
  | done {a s s' b} : f a s = .ok (s', .inr b) → Runs f a s (.ok (s', b))
  | fail {a s e} : f a s = .error e → Runs f a s (.error e)

/-- The goroutine that waits for changes of the window size. -/
inductive WaPc (K : Code) where
  /-- waiting for a signal, a tick or the end: tty8.go:28, tty10/main.go:29 -/
  | select
  /-- at main.go:176 -/
  | locking (w : Int)
  /-- within main.go:177-179 -/
  | running (r : K.R)
  /-- at main.go:180 -/
  | unlocking
  /-- told to stop: tty10/main.go:31 -/
  | stopping
  | stopped
  /-- a panic in the callback, which ends the program -/
  | crashed (k : PanicKind)

/-- The goroutine that called `ReadLine`. -/
inductive EdPc (K : Code) where
  /-- in `Tty.Size`, main.go:189 -/
  | sizing
  /-- before the assignment, main.go:189 -/
  | sized (w : Int)
  /-- within main.go:194-210 -/
  | starting (a : K.A)
  /-- before `Flush`, buffer.go:244 -/
  | idle
  /-- waiting for a key, buffer.go:245 -/
  | waiting
  /-- at main.go:216 -/
  | locking (k : Bytes)
  /-- within main.go:218-236 -/
  | running (l : K.L)
  /-- at main.go:239 or 248 -/
  | unlocking (o : Option RLRes)
  /-- in the deferred `Close`, main.go:186; after a panic there is no result -/
  | closing (r : Except PanicKind RLRes)
  /-- the deferred writes (main.go:163-166) and the return -/
  | returned (r : Except PanicKind RLRes)

inductive Who where
  | editor | watcher
deriving DecidableEq, Repr

/-- What was done inside the mutex, in the order of the locks (only for the statements). -/
inductive Op where
  | key (k : Bytes)
  | resize (w : Int)
deriving DecidableEq, Repr

/-- The state of the program. -/
structure G (K : Code) where
  mem : St
  lock : Option Who := none
  ed : EdPc K := .sizing
  wa : WaPc K := .select
  log : List Op := []

/-- `Tty.Open` has returned and nothing else happened. -/
def G.init (K : Code) (E : Env) (w : World) : G K := { mem := bufferSt E w }

/-- The start of `ReadLine` is over: main.go:211 was reached. -/
def EdPc.started {K : Code} : EdPc K → Prop
  | .sizing | .sized _ | .starting _ => False
  | _ => True

/-- The editor has closed the Tty. -/
def EdPc.closed {K : Code} : EdPc K → Prop
  | .returned _ => True
  | _ => False

/-- One step.  `joins`: the Tty is tty10, whose `Close` hands a value to the watcher over an
unbuffered channel; otherwise it is tty8, whose `Close` does not wait.  `early`: the watcher may
act while the start code runs, which is how the program is. -/
inductive Step (K : Code) (joins early : Bool) : G K → G K → Prop where
  -- the editor
  | size {g} (w : Int) : g.ed = .sizing → Step K joins early g { g with ed := .sized w }
  | assign {g w} : g.ed = .sized w →
      Step K joins early g { g with ed := .starting K.begin, mem := { g.mem with termWidth := w } }
  | startMore {g a a' s} : g.ed = .starting a → K.start a g.mem = .ok (s, .inl a') →
      Step K joins early g { g with ed := .starting a', mem := s }
  | startDone {g a s} : g.ed = .starting a → K.start a g.mem = .ok (s, .inr ()) →
      Step K joins early g { g with ed := .idle, mem := s }
  | startFail {g a e} : g.ed = .starting a → K.start a g.mem = .error e →
      Step K joins early g { g with ed := .closing (.error e.kind), mem := e.st }
  | flush {g} : g.ed = .idle → Step K joins early g { g with ed := .waiting, mem := g.mem.emit .await }
  | take {g k rest} : g.ed = .waiting → g.mem.input = .key k :: rest →
      Step K joins early g { g with ed := .locking k, mem := { g.mem with input := rest } }
  | takeErr {g e rest} : g.ed = .waiting → g.mem.input = .err e :: rest →
      Step K joins early g { g with ed := .closing (.ok { text := [], err := .tty e }),
                                    mem := { g.mem with input := rest } }
  | takeEof {g} : g.ed = .waiting → g.mem.input = [] →
      Step K joins early g { g with ed := .closing (.ok { text := [], err := .tty [] }) }
  | lock {g k} : g.ed = .locking k → g.lock = none →
      Step K joins early g { g with ed := .running (K.enter k), lock := some .editor, log := g.log ++ [.key k] }
  | more {g l l' s} : g.ed = .running l → K.body l g.mem = .ok (s, .inl l') →
      Step K joins early g { g with ed := .running l', mem := s }
  | done {g l o s} : g.ed = .running l → K.body l g.mem = .ok (s, .inr o) →
      Step K joins early g { g with ed := .unlocking o, mem := s }
  -- a panic: the mutex stays locked and the deferred calls are run
  | fail {g l e} : g.ed = .running l → K.body l g.mem = .error e →
      Step K joins early g { g with ed := .closing (.error e.kind), mem := e.st }
  | unlockGo {g} : g.ed = .unlocking none →
      Step K joins early g { g with ed := .idle, lock := none }
  | unlockEnd {g r} : g.ed = .unlocking (some r) →
      Step K joins early g { g with ed := .closing (.ok r), lock := none }
  | closeJoin {g r} : joins = true → g.ed = .closing r → g.wa = .select →
      Step K joins early g { g with ed := .returned r, wa := .stopping }
  | closeFree {g r} : joins = false → g.ed = .closing r →
      Step K joins early g { g with ed := .returned r }
  -- the watcher
  | tick {g} (w : Int) : (early = false → g.ed.started) → g.wa = .select →
      Step K joins early g { g with wa := .locking w }
  | watchLock {g w} : g.wa = .locking w → g.lock = none →
      Step K joins early g { g with wa := .running (K.call w), lock := some .watcher, log := g.log ++ [.resize w] }
  | watchMore {g r r' s} : g.wa = .running r → K.back r g.mem = .ok (s, .inl r') →
      Step K joins early g { g with wa := .running r', mem := s }
  | watchDone {g r s} : g.wa = .running r → K.back r g.mem = .ok (s, .inr ()) →
      Step K joins early g { g with wa := .unlocking, mem := s }
  | watchFail {g r e} : g.wa = .running r → K.back r g.mem = .error e →
      Step K joins early g { g with wa := .crashed e.kind, mem := e.st }
  | watchUnlock {g} : g.wa = .unlocking →
      Step K joins early g { g with wa := .select, lock := none }
  | stop {g} : g.wa = .stopping → Step K joins early g { g with wa := .stopped }
  -- go-tty closes the channel of the signals
  | chanClosed {g} : joins = false → g.ed.closed → g.wa = .select →
      Step K joins early g { g with wa := .stopped }

/-- A schedule: any number of steps of the running program.  A panic in the watcher ends the
program. -/
inductive Steps (K : Code) (joins early : Bool) : G K → G K → Prop where
  | refl {g} : Steps K joins early g g
  | step {g g' g''} : Steps K joins early g g' → (∀ k, g'.wa ≠ .crashed k) → Step K joins early g' g'' →
      Steps K joins early g g''

end Readline
