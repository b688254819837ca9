import Verif.Model.Threads
/-!
# Whole commands and whole resizes, one after the other

The specification of the two goroutines: one sequence of whole commands and whole callbacks.
-/
namespace Readline.Spec

/-- `Serial E w ops o s`: after the start, the commands and callbacks `ops`, each as a whole, lead to
the state `s`; `o` is the result when a command ended the editing. -/
inductive Serial (E : Env) (w : World) : List Op → Option RLRes → St → Prop where
  | start {s} : startSt E w = .ok s → Serial E w [] none s
  | key {ops s k rest s' o} : Serial E w ops none s → s.input = .key k :: rest →
      lockedPart E k { s.emit .await with input := rest } = .ok (s', o) → Serial E w (ops ++ [.key k]) o s'
  | resize {ops o s w' s'} : Serial E w ops o s → onResize E s w' = .ok s' →
      Serial E w (ops ++ [.resize w']) o s'

/-- The sequence of whole commands and callbacks stops with a panic. -/
inductive SerialFails (E : Env) (w : World) (kind : PanicKind) : Prop where
  | start {e} : startSt E w = .error e → e.kind = kind → SerialFails E w kind
  | key {ops s k rest e} : Serial E w ops none s → s.input = .key k :: rest →
      lockedPart E k { s.emit .await with input := rest } = .error e → e.kind = kind → SerialFails E w kind
  | resize {ops o s w' e} : Serial E w ops o s → onResize E s w' = .error e → e.kind = kind →
      SerialFails E w kind

/-- The output without the marks of where the program waited for a key. -/
def seenOut (out : List Tok) : List Tok := out.filter (fun t => decide (t ≠ .await))

/-- Everything but the input that is left and the output. -/
def kept (s : St) : St := { s with input := [], out := [] }

/-- The same line, cursor, undo log, clipboard and so on, and the same output up to the marks. -/
def AsIf (s t : St) : Prop := kept s = kept t ∧ seenOut s.out = seenOut t.out

/-- The reading of a key fails in `s` with the result `r`, main.go:212-215. -/
def TtyErr (s : St) (r : RLRes) : Prop :=
  (s.input = [] ∧ r = { text := [], err := .tty [] }) ∨
    ∃ e rest, s.input = .err e :: rest ∧ r = { text := [], err := .tty e }

end Readline.Spec
