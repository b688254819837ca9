import Verif.Spec.Source
import Verif.Spec.Joiner
/-!
# Ordinary sessions

Conditions on the configuration, the texts and the keys alone, under which the session theorems
about the row hold.
-/
namespace Readline.Spec

/-- An ordinary character: neither a tab nor a character that attaches to the one before it, shown
as itself in one or two columns or as `^` and a letter. -/
structure Plain (C : Cfg) (r : Nat) : Prop where
  alone : ¬ Joins C r
  noTab : r ≠ 9
  shown : r < 0x10000 ∨ C.surrogateOk = true
  columns : r < 0x20 ∨ (1 ≤ C.width r ∧ C.width r ≤ 2)

/-- The columns of an ordinary character: control characters, box drawings on a terminal that
shows them wide, flags and mathematical letters take two. -/
def plainColumns (C : Cfg) (r : Nat) : Int :=
  if r < 0x20 ∨ (0x2500 ≤ r ∧ r ≤ 0x257F ∧ C.ambWide = true) ∨ (0x1F1E6 ≤ r ∧ r ≤ 0x1F1FF) ∨
    (0x1D400 ≤ r ∧ r ≤ 0x1D7FF) ∨ r = 0x1F3F3 then 2
  else C.width r

/-- The columns of the prompt when it is written for the `n`th time. -/
def promptWidth (E : Env) (n : Nat) : Int :=
  match E.prompt with
  | none => 2
  | some p => (mojiWidthAndCount E.cfg (cutEscapeSequenceAndOldLine (p n))).1

/-- The texts of a session have ordinary characters from `P` only, and the terminal has room for the
prompt, two wide characters and the right margin. -/
structure Modest (P : Nat → Prop) (E : Env) (w : World) : Prop where
  sources : Sources P E w
  plain : ∀ r, P r → Plain E.cfg r
  /-- the prompt can be written, or is as wide as the one that is written instead -/
  top : E.promptErr = none ∨ promptWidth E w.promptN = 2
  /-- the prompt is as wide every time -/
  prompt : ∀ n, promptWidth E n = promptWidth E w.promptN
  room : promptWidth E w.promptN + 5 < w.termWidth
  resized : ∀ n, .resize n ∈ w.input → promptWidth E w.promptN + 5 < n

/-- A session with ordinary characters from `P` on a terminal with room for the prompt, two wide
characters and the right margin. -/
structure Ordinary (P : Nat → Prop) (E : Env) (w : World) : Prop where
  sources : Sources P E w
  plain : ∀ r, P r → Plain E.cfg r
  /-- the prompt can be written and is as wide every time -/
  written : E.promptErr = none
  prompt : ∀ n, promptWidth E n = promptWidth E w.promptN
  room : promptWidth E w.promptN + 5 < w.termWidth
  resized : ∀ n, .resize n ∈ w.input → promptWidth E w.promptN + 5 < n
  /-- reading a key fails only at the end -/
  errors : ∀ e, Ev.err e ∉ w.input.dropLast
  /-- characters are exchanged only if all are equally wide -/
  swap : ∀ q, .key q ∈ w.input → lookupCommand E q = .swapChar → ∃ k, ∀ r, P r → plainColumns E.cfg r = k

theorem Ordinary.modest {P : Nat → Prop} {E : Env} {w : World} (h : Ordinary P E w) : Modest P E w :=
  ⟨h.sources, h.plain, Or.inl h.written, h.prompt, h.room, h.resized⟩

end Readline.Spec
