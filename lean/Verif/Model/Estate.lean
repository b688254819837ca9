import Verif.Model.Shell
/-!
# What lasts beyond a call of `ReadLine`: the mutex and the terminal

`ReadLine`, main.go:161-250, with the default Tty (`_Tty`, tty8.go:15-59) and the mutex of the editor
(main.go:54), when calls can fail or panic and the calling program goes on (`recover`).

A panic in a command runs the deferred functions (main.go:163-166, 186) but not main.go:239 or 248: the mutex stays
locked.  A panic in the callback happens in the goroutine of tty8.go:26-36 and ends the program.

Simplified: resizes are handled between two commands, as in `Model/ReadLine`; the goroutine and the signal handler of go-tty
belong to its terminal and are given back by its `Close`; a callback that finds the mutex locked waits for ever and its
goroutine sees no further signals.
-/
namespace Readline

/-- What goes wrong in the calls of the terminal: `tty.Open`, tty8.go:17; `TTY.Size` in `Open`, tty8.go:21; `Tty.Size`
of `ReadLine`, main.go:189.  The texts of the errors are those `ReadLine` returns. -/
structure Luck where
  openErr : Option Bytes := none
  sizeErr : Option Bytes := none
  width : Except Bytes Int := .ok 80

/-- What lasts: whether the mutex is locked, which terminals are open (numbered in the order in which they were opened), the
field `TTY` of the `_Tty` and how many were opened. -/
structure Estate where
  locked : Bool := false
  files : List Nat := []
  tty : Option Nat := none
  count : Nat := 0
deriving Repr, DecidableEq

/-- How a call ends. -/
inductive Fate where
  /-- `ReadLine` returns -/
  | back (r : RLRes)
  /-- `ReadLine` panics; the caller can recover -/
  | panicked (k : PanicKind)
  /-- a goroutine of the library panics and ends the program -/
  | crashed (k : PanicKind)
  /-- `ReadLine` waits for ever for the mutex -/
  | hung
deriving Repr, DecidableEq

/-- Can the program go on behind the call? -/
def Fate.lives : Fate → Bool
  | .back _ | .panicked _ => true
  | .crashed _ | .hung => false

/-- `(*_Tty).Open`, tty8.go:15-38. -/
def Estate.open8 (R : Estate) (l : Luck) : Estate × Option Bytes :=
  match l.openErr with
  | some e => ({ R with tty := none }, some e)
  | none => ({ R with files := R.files ++ [R.count], tty := some R.count, count := R.count + 1 }, l.sizeErr)

/-- `(*_Tty).Close`, tty8.go:53-59. -/
def Estate.close8 (R : Estate) : Estate :=
  match R.tty with
  | some f => { R with files := R.files.filter (· ≠ f), tty := none }
  | none => R

/-- The deferred writes, main.go:164-165. -/
def World.leave (w : World) : World := { w with out := w.out ++ [.cursorOn, .flush] }

/-- The loop of `ReadLine`, main.go:211-249, and the callback, main.go:175-181, with the mutex. -/
def lockLoop (E : Env) : Nat → Estate → St → Estate × World × Fate
  | 0, R, s => (R, s.world, .panicked .diverge)
  | fuel + 1, R, s =>
    match s.input with
    | [] => (R, (s.emit .await).world.leave, .back { text := [], err := .tty [] })
    | .err e :: rest => (R, { s.emit .await with input := rest }.world.leave, .back { text := [], err := .tty e })
    | .resize w :: rest =>
      if R.locked then lockLoop E fuel R { s with input := rest }
      else
        match onResize E { s with input := rest } w with
        | .error e => ({ R with locked := true }, e.st.world, .crashed e.kind)
        | .ok s => lockLoop E fuel { R with locked := false } s
    | .key k :: rest =>
      if R.locked then (R, { s.emit .await with input := rest }.world, .hung)
      else
        match execCmd E (lookupCommand E k) { s.emit .await with input := rest } with
        | .error e => ({ R with locked := true }, e.st.world.leave, .panicked e.kind)
        | .ok (s, none) => lockLoop E fuel { R with locked := false } s
        | .ok (s, some r) => ({ R with locked := false }, s.world, .back r)

/-- main.go:188-249: behind `Tty.Open`. -/
def openedOn (E : Env) (l : Luck) (w : World) (R : Estate) : Estate × World × Fate :=
  match l.width with
  | .error e => (R, w.leave, .back { text := [], err := .tty e })
  | .ok n =>
    match startSt E { w with termWidth := n } with
    | .error e => (R, e.st.world.leave, .panicked e.kind)
    | .ok s => lockLoop E (s.input.length + 1) R s

/-- A call of `ReadLine`, main.go:161-250. -/
def callOn (E : Env) (l : Luck) (w : World) (R : Estate) : Estate × World × Fate :=
  match R.open8 l with
  | (R, some e) => (R, w.leave, .back { text := [], err := .tty e })
  | (R, none) =>
    let (R, w, f) := openedOn E l w R
    (if f.lives then R.close8 else R, w, f)

/-- Calls on one editor, one after the other, as long as the program lives.  Between two calls the program may change the
fields of the editor. -/
def callsOn : List (Env × Luck) → World → Estate → Estate × World × List Fate
  | [], w, R => (R, w, [])
  | (E, l) :: cs, w, R =>
    let (R, w, f) := callOn E l w R
    if f.lives then
      let (R, w, fs) := callsOn cs w R
      (R, w, f :: fs)
    else (R, w, [f])

end Readline
