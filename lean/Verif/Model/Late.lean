import Verif.Model.Statements
import Verif.Model.Estate
/-!
# Several calls of `ReadLine` and the goroutines they leave behind

`Open` starts a goroutine that waits for changes of the window size (tty8.go:26-36, tty10/main.go:27-40) and calls the closure
`onResize` (main.go:175-181) of its call.  `Close` of tty10 (main.go:79-83) waits until that goroutine takes the value; `Close`
of tty8 (tty8.go:53-59) does not wait, so the goroutine may be about to call back, or in the callback, when `ReadLine` returns
and is called again.

The closure has the `Buffer` of its own call (main.go:168), but the `Editor` it points to is the same for all calls: the mutex
(main.go:54), the output and the field `Cursor` are shared.  What the program sets in the editor between two calls (history,
colours and so on) is seen by the goroutines of earlier calls too.

Simplified: a `PromptWriter` that counts its calls counts those of every call of `ReadLine` by itself; the program goes on to
the next call only after a result, not after a panic (Model/Estate has those).
-/
namespace Readline

/-- The code of the two goroutines, cut into steps in the same way for every state of the editor. -/
structure Cut where
  A : Type
  L : Type
  R : Type
  begin : Env → A
  start : Env → A → St → M (St × (A ⊕ Unit))
  enter : Bytes → L
  body : Env → L → St → M (St × (L ⊕ Option RLRes))
  call : Int → R
  back : Env → R → St → M (St × (R ⊕ Unit))

/-- The code of a call. -/
def Cut.code (C : Cut) (E : Env) : Code where
  A := C.A
  L := C.L
  R := C.R
  begin := C.begin E
  start := C.start E
  enter := C.enter
  body := C.body E
  call := C.call
  back := C.back E

/-- Statement by statement. -/
def stmtCut : Cut where
  A := List (St → M St)
  L := CmdPc
  R := BackPc
  begin := startStmts
  start := fun _ => stepList
  enter := .off
  body := stepCmd
  call := .width
  back := stepBack

/-- Where the goroutine of a call that has returned is. -/
inductive LatePc (R : Type) where
  | select
  | locking (w : Int)
  | running (r : R)
  | unlocking
  | stopping
  | stopped
  | crashed (k : PanicKind)

/-- The goroutine goes on from where it was. -/
def WaPc.late {K : Code} : WaPc K → LatePc K.R
  | .select => .select
  | .locking w => .locking w
  | .running r => .running r
  | .unlocking => .unlocking
  | .stopping => .stopping
  | .stopped => .stopped
  | .crashed k => .crashed k

/-- The goroutine and the `Buffer` of a call that has returned. -/
structure Late (R : Type) where
  mem : St
  pc : LatePc R

/-- A program that calls `ReadLine` again and again: the editor and the present call, what earlier calls left behind, and
their results. -/
structure Prog (C : Cut) where
  E : Env
  g : G (C.code E)
  late : List (Late C.R) := []
  results : List RLRes := []

/-- What belongs to the `Editor` and not to the `Buffer`, as it is in `now`: the output and the field `Cursor`. -/
def St.lend (s now : St) : St := { s with cursor := now.cursor, out := now.out }

/-- The first call begins. -/
def Prog.init (C : Cut) (E : Env) (w : World) : Prog C := { E := E, g := G.init (C.code E) E w }

/-- The next call begins; the program may have changed the editor. -/
def Prog.again {C : Cut} (p : Prog C) (r : RLRes) (E : Env) : Prog C where
  E := E
  g := { G.init (C.code E) E p.g.mem.world.leave with lock := p.g.lock }
  late := p.late ++ [⟨p.g.mem, p.g.wa.late⟩]
  results := p.results ++ [r]

/-- One step: of the two goroutines of the present call, of a goroutine of an earlier call, or the next call.  `may`: how the
program may set up the editor for it. -/
inductive ProgStep (C : Cut) (joins early : Bool) (may : Env → Prop) : Prog C → Prog C → Prop where
  | now {p g'} : Step (C.code p.E) joins early p.g g' → ProgStep C joins early may p { p with g := g' }
  | next {p r} (E : Env) : may E → p.g.ed = .returned (.ok r) → ProgStep C joins early may p (p.again r E)
  -- a signal that was on its way when the terminal was closed
  | tick {p a x b} (w : Int) : p.late = a ++ x :: b → x.pc = .select →
      ProgStep C joins early may p { p with late := a ++ { x with pc := .locking w } :: b }
  | lock {p a x b w} : p.late = a ++ x :: b → x.pc = .locking w → p.g.lock = none →
      ProgStep C joins early may p
        { p with late := a ++ { x with pc := .running (C.call w) } :: b, g := { p.g with lock := some .watcher } }
  | more {p a x b r r' s} : p.late = a ++ x :: b → x.pc = .running r →
      C.back p.E r (x.mem.lend p.g.mem) = .ok (s, .inl r') →
      ProgStep C joins early may p
        { p with late := a ++ ⟨s, .running r'⟩ :: b, g := { p.g with mem := p.g.mem.lend s } }
  | done {p a x b r s} : p.late = a ++ x :: b → x.pc = .running r →
      C.back p.E r (x.mem.lend p.g.mem) = .ok (s, .inr ()) →
      ProgStep C joins early may p
        { p with late := a ++ ⟨s, .unlocking⟩ :: b, g := { p.g with mem := p.g.mem.lend s } }
  | fail {p a x b r e} : p.late = a ++ x :: b → x.pc = .running r →
      C.back p.E r (x.mem.lend p.g.mem) = .error e →
      ProgStep C joins early may p
        { p with late := a ++ ⟨e.st, .crashed e.kind⟩ :: b }
  | unlock {p a x b} : p.late = a ++ x :: b → x.pc = .unlocking →
      ProgStep C joins early may p
        { p with late := a ++ { x with pc := .select } :: b, g := { p.g with lock := none } }
  | stop {p a x b} : p.late = a ++ x :: b → x.pc = .stopping →
      ProgStep C joins early may p { p with late := a ++ { x with pc := .stopped } :: b }
  -- go-tty closes the channel of the signals
  | closed {p a x b} : joins = false → p.late = a ++ x :: b → x.pc = .select →
      ProgStep C joins early may p { p with late := a ++ { x with pc := .stopped } :: b }

/-- A panic in one of the watching goroutines has ended the program. -/
def Prog.crashed {C : Cut} (p : Prog C) : Prop :=
  (∃ k, p.g.wa = .crashed k) ∨ ∃ x ∈ p.late, ∃ k, x.pc = .crashed k

/-- A schedule of the program. -/
inductive ProgSteps (C : Cut) (joins early : Bool) (may : Env → Prop) : Prog C → Prog C → Prop where
  | refl {p} : ProgSteps C joins early may p p
  | step {p p' p''} : ProgSteps C joins early may p p' → ¬ p'.crashed → ProgStep C joins early may p' p'' →
      ProgSteps C joins early may p p''

end Readline
