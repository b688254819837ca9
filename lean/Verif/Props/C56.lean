import Verif.Model.Output
/-!
# C56: Init fills in what is missing, changes nothing else, and puts one buffer before the writer

`C56_keeps`, `C56_fills`, `C56_again`: fields that are set stay, none is nil afterwards, and a second call does
nothing.
`C56_out_partial`: if `Out` is not set, it leads to where `Writer` leads, and a `*bufio.Writer` is used as it
is, however small: flushing `Out` flushes the one buffer there is.
`C56_refuted`: once `Out` is set it stays, so a `Writer` given after the first `ReadLine` is not used.
-/
namespace Readline

/-- Where the bytes go in the end. -/
def Spec.leadsTo : Sink → Nat
  | .device d => d
  | .buffered _ _ u => leadsTo u

/-- How many buffers are on the way. -/
def Spec.buffers : Sink → Nat
  | .device _ => 0
  | .buffered _ _ u => buffers u + 1

open Spec

section
variable {H T C P : Type} {D : Defaults H T C P} {n m : Nat} {f : Fields H T C P}

/-- `Init`, field by field. -/
theorem init_eq : f.init D n =
    { writer := some (f.writer.getD .stdout)
      out := some (f.out.getD (match f.writer.getD .stdout with
        | .device d => .buffered n 4096 (.device d)
        | .buffered p k u => .buffered p k u))
      history := some (f.history.getD D.history)
      tty := some (f.tty.getD D.tty)
      coloring := some (f.coloring.getD D.coloring)
      predictor := some (f.predictor.getD D.predictor) } := by
  obtain ⟨w, o, h, t, c, p⟩ := f
  rcases w with _ | _ | _ <;> cases o <;> cases h <;> cases t <;> cases c <;> cases p <;> rfl

/-- What is set is not changed. -/
theorem C56_keeps :
    (∀ x, f.writer = some x → (f.init D n).writer = some x) ∧ (∀ x, f.out = some x → (f.init D n).out = some x) ∧
    (∀ x, f.history = some x → (f.init D n).history = some x) ∧ (∀ x, f.tty = some x → (f.init D n).tty = some x) ∧
    (∀ x, f.coloring = some x → (f.init D n).coloring = some x) ∧
    (∀ x, f.predictor = some x → (f.init D n).predictor = some x) := by
  rw [init_eq]
  refine ⟨?_, ?_, ?_, ?_, ?_, ?_⟩ <;> intro x hx <;> rw [hx] <;> rfl

/-- What is nil gets its default. -/
theorem C56_fills :
    (f.writer = none → (f.init D n).writer = some .stdout) ∧ (f.init D n).out ≠ none ∧
    (f.history = none → (f.init D n).history = some D.history) ∧ (f.tty = none → (f.init D n).tty = some D.tty) ∧
    (f.coloring = none → (f.init D n).coloring = some D.coloring) ∧
    (f.predictor = none → (f.init D n).predictor = some D.predictor) := by
  rw [init_eq]
  refine ⟨?_, nofun, ?_, ?_, ?_, ?_⟩ <;> intro hx <;> rw [hx] <;> rfl

/-- Calling it again changes nothing. -/
theorem C56_again : (f.init D n).init D m = f.init D n := by
  rw [init_eq (f := f.init D n), init_eq]
  rfl

/-- If `Out` was not set: it leads to where `Writer` leads, through one buffer, or through the buffers that
are in `Writer`; and a `*bufio.Writer` is `Out` itself. -/
theorem C56_out_partial (h : f.out = none) :
    ∃ w o, (f.init D n).writer = some w ∧ (f.init D n).out = some o ∧ leadsTo o = leadsTo w ∧
      buffers o = max 1 (buffers w) ∧ (buffers w ≠ 0 → o = w) := by
  rw [init_eq, h]
  refine ⟨_, _, rfl, rfl, ?_⟩
  cases f.writer.getD .stdout with
  | device d => exact ⟨rfl, rfl, fun hx => absurd rfl hx⟩
  | buffered p k u => exact ⟨rfl, by simp only [buffers, Option.getD_none]; omega, fun _ => rfl⟩

/-- **Refuted** (that output goes to `Writer`).  After a first call, whatever `Writer` is set to, the output goes to
where it went before. -/
theorem C56_refuted (w : Sink) :
    ({ f.init D n with writer := some w }.init D m).out = (f.init D n).out ∧
    ({ f.init D n with writer := some w }.init D m).writer = some w := by
  rw [init_eq (f := { f.init D n with writer := some w }), init_eq]
  exact ⟨rfl, rfl⟩

end

/-- Nothing is set: standard output through a buffer. -/
example : (({} : Fields Nat Nat Nat Nat).init ⟨1, 2, 3, 4⟩ 100).out = some (.buffered 100 4096 .stdout) := by decide

/-- A `*bufio.Writer` with a buffer of 16 bytes is used as it is; `bufio.NewWriter` would put another one in
front of it, and what is flushed from that one could stay in the small one. -/
example : (({ writer := some (.buffered 7 16 (.device 2)) } : Fields Nat Nat Nat Nat).init ⟨1, 2, 3, 4⟩ 100).out =
      some (.buffered 7 16 (.device 2)) ∧
    newWriter 100 (.buffered 7 16 (.device 2)) = .buffered 100 4096 (.buffered 7 16 (.device 2)) := by decide

/-- The `Writer` set after the first call is not used. -/
example : ({ (({} : Fields Nat Nat Nat Nat).init ⟨1, 2, 3, 4⟩ 100) with writer := some (.device 5) }.init
    ⟨1, 2, 3, 4⟩ 200).out = some (.buffered 100 4096 .stdout) := by decide

end Readline
