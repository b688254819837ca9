import Verif.Model.Buffer
/-!
# The buffered output and the fields `Init` fills in

`bufio.Writer` (Go's standard library, `WriteString`, `Flush`) in front of a terminal that may stop
accepting bytes; `Init`, main.go:132-158, with `bufio.NewWriter`.

Simplified: how the text is cut into calls of the terminal's `Write` is not kept, only which bytes
have arrived.
-/
namespace Readline

/-- A `bufio.Writer` and the terminal behind it. -/
structure Writer where
  /-- size of the buffer -/
  size : Nat
  /-- not yet handed on -/
  buf : Bytes := []
  /-- arrived at the terminal -/
  sent : Bytes := []
  /-- how many more bytes the terminal takes before it fails; `none`: it never fails -/
  room : Option Nat := none
  /-- `b.err != nil` -/
  failed : Bool := false
deriving Repr, DecidableEq

/-- The terminal's `Write`: how many bytes it takes. -/
def Writer.takes (w : Writer) (p : Bytes) : Nat :=
  match w.room with
  | none => p.length
  | some r => min r p.length

/-- Handing bytes on to the terminal. -/
def Writer.send (w : Writer) (p : Bytes) : Writer :=
  { w with sent := w.sent ++ p.take (w.takes p), room := w.room.map (· - w.takes p),
           failed := w.takes p < p.length }

/-- `(*bufio.Writer).Flush`. -/
def Writer.flush (w : Writer) : Writer :=
  if w.failed then w
  else if w.buf = [] then w
  else { w.send w.buf with buf := w.buf.drop (w.takes w.buf) }

/-- The loop of `(*bufio.Writer).Write`: while the text does not fit, fill the buffer and flush it (or
hand the text on directly if nothing is buffered); then keep the rest. -/
def Writer.writeLoop : Nat → Writer → Bytes → Writer
  | 0, w, _ => w
  | fuel + 1, w, p =>
    if w.failed then w
    else if p.length ≤ w.size - w.buf.length then { w with buf := w.buf ++ p }
    else if w.buf = [] then w.send p
    else
      let n := w.size - w.buf.length
      writeLoop fuel ({ w with buf := w.buf ++ p.take n }.flush) (p.drop n)

/-- `Write`, `WriteString` and so on. -/
def Writer.write (w : Writer) (p : Bytes) : Writer := w.writeLoop (p.length + 2) p

/-- A piece of output. -/
def Writer.tok (C : Cfg) (w : Writer) : Tok → Writer
  | .flush | .await => w.flush
  | t => w.write (t.bytes C)

def Writer.run (C : Cfg) (w : Writer) (ts : List Tok) : Writer := ts.foldl (Writer.tok C) w

/-! ## The fields of `Editor` that may be nil -/

/-- An `io.Writer`: something that is not a `*bufio.Writer`, or a `*bufio.Writer` (the pointer, the size of
its buffer, what it writes to). -/
inductive Sink where
  | device (id : Nat)
  | buffered (ptr size : Nat) (under : Sink)
deriving Repr, DecidableEq

/-- `os.Stdout`. -/
def Sink.stdout : Sink := .device 1

/-- `bufio.NewWriter` (standard library): a `*bufio.Writer` whose buffer is large enough is returned as it is.
`next` is the pointer the allocation gives. -/
def newWriter (next : Nat) : Sink → Sink
  | .device d => .buffered next 4096 (.device d)
  | .buffered p n u => if 4096 ≤ n then .buffered p n u else .buffered next 4096 (.buffered p n u)

/-- The fields `Init` looks at, main.go:40-56; `none` is nil.  Histories, Ttys, Colorings and Predictors are
any types. -/
structure Fields (H T C P : Type) where
  writer : Option Sink := none
  out : Option Sink := none
  history : Option H := none
  tty : Option T := none
  coloring : Option C := none
  predictor : Option P := none
deriving Repr, DecidableEq

/-- `_EmptyHistory{}`, `&_Tty{}`, `_MonoChrome{}`, `predictByHistory`. -/
structure Defaults (H T C P : Type) where
  history : H
  tty : T
  coloring : C
  predictor : P

/-- `Init`, main.go:132-158. -/
def Fields.init (D : Defaults H T C P) (next : Nat) (f : Fields H T C P) : Fields H T C P :=
  let f := if f.writer = none then { f with writer := some .stdout } else f
  let f := if f.out = none then
      match f.writer with
      | some (.buffered p n u) => { f with out := some (.buffered p n u) }
      | some w => { f with out := some (newWriter next w) }
      | none => f
    else f
  let f := if f.history.isNone then { f with history := some D.history } else f
  let f := if f.tty.isNone then { f with tty := some D.tty } else f
  let f := if f.coloring.isNone then { f with coloring := some D.coloring } else f
  if f.predictor.isNone then { f with predictor := some D.predictor } else f

end Readline
