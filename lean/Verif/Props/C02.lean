import Verif.Props.C01
/-!
# C02: cursor and scroll offset stay inside the line

`C02_partial`: in every state in which a key is awaited, in every session of built-in commands.
`C02_command`: a single command keeps the property, in any state, if the entry Undo is about to use
fits the line.
`C02_refuted`: what is missing.  After a joiner typed at the start of the line Undo can leave the cursor
behind the end; the model stops there (`.stale`), because the editor then takes a slice beyond the length
of the line, which Go allows up to the capacity.
-/
namespace Readline
open Spec

/-- `0 ≤ ViewStart ≤ Cursor ≤ len(Buffer)` whenever a key is awaited, whatever was typed before.
Missing: the states after an Undo that leaves the cursor behind the end (`C02_refuted`). -/
theorem C02_partial {E : Env} {w : World} {s : St} (hb : BuiltinKeys E) (hc : 0 ≤ w.cursor)
    (h : Reachable E w s) :
    0 ≤ s.viewStart ∧ s.viewStart ≤ s.cursor ∧ s.cursor ≤ s.buf.length :=
  (reachable_inside hb hc h).1

/-- One command, in any state: the positions are inside the line afterwards, also when the
command ends the editing.  Undo needs an entry that fits, history browsing a pointer into the
history. -/
theorem C02_command {E : Env} {c : Cmd} {s s' : St} {rc : Result} (hb : c.builtin = true)
    (h : 0 ≤ s.viewStart ∧ s.viewStart ≤ s.cursor ∧ s.cursor ≤ s.buf.length)
    (hh : 0 ≤ s.histPtr ∧ s.histPtr ≤ E.history.length)
    (hu : c = .undo → ∀ u rest, s.undoes = u :: rest → 0 ≤ u.pos ∧ u.pos + u.del ≤ s.buf.length)
    (hcall : Cmd.call E c s = .ok (s', rc)) :
    0 ≤ s'.viewStart ∧ s'.viewStart ≤ s'.cursor ∧ s'.cursor ≤ s'.buf.length :=
  (call_wp hb h hh hu).ok hcall

/-- A resize keeps it, too. -/
theorem C02_resize {E : Env} {s s' : St} {n : Int}
    (h : 0 ≤ s.viewStart ∧ s.viewStart ≤ s.cursor ∧ s.cursor ≤ s.buf.length)
    (hr : onResize E s n = .ok s') :
    0 ≤ s'.viewStart ∧ s'.viewStart ≤ s'.cursor ∧ s'.cursor ≤ s'.buf.length :=
  (onResize_wp h).ok hr

section
open Example

/-- Cursor and length of the line at the point where the model stops. -/
def stopped (x : M St) : Option (PanicKind × Int × Int) :=
  match x with
  | .error p => some (p.kind, p.st.cursor, p.st.len)
  | .ok _ => none

/-- The Undo of the Ctrl-K of `C01_refuted_orphan` puts the cursor at 2 although the line has
one unit left. -/
theorem C02_refuted :
    stopped (after (env full)
      { input := keys ["‍", "\x01", "X", "\x05", "\x0b", "\x15", "\x1a", "\x1a"] } 8) =
      some (.stale, 2, 1) := by decide +kernel

/-- A scrolled line: the cursor is at the end and the view starts at the sixth unit. -/
example : look (after (env plain) { termWidth := 9, input := keys ["a", "b", "c", "d", "e", "f", "あ"] } 7) =
    .inr ([[97], [98], [99], [100], [101], [102], b "あ"], 7, 5) := by decide +kernel

end
end Readline
