import Verif.Props.C01
/-!
# C03: ReadLine's result is the edited line with the right error

`C03`: every result of a session of built-in commands is one of five, each with its cause.
`C03_enter`, `C03_interrupt`, `C03_eof`, `C03_error`: each cause ends the session in that way.
`C03_open`, `C03_size`: failures before the loop.
`C03_goes_on`: no other key ends the session.
-/
namespace Readline
open Spec

/-- Why the session ends in state `s` and with which result. -/
inductive Spec.Ends (E : Env) (s : St) : RLRes → Prop where
  /-- Enter: the text of the line -/
  | enter {k rest} : s.input = .key k :: rest → lookupCommand E k = .acceptLine →
      Ends E s ⟨s.units.flatten, .nil⟩
  /-- Ctrl-C: nothing -/
  | interrupt {k rest} : s.input = .key k :: rest → lookupCommand E k = .interrupt →
      Ends E s ⟨[], .ctrlC⟩
  /-- Ctrl-D on an empty line: nothing -/
  | eof {k rest} : s.input = .key k :: rest → lookupCommand E k = .deleteOrAbort → s.units = [] →
      Ends E s ⟨[], .eof⟩
  /-- the Tty fails -/
  | error {e rest} : s.input = .err e :: rest → Ends E s ⟨[], .tty e⟩
  /-- no more input -/
  | exhausted : s.input = [] → Ends E s ⟨[], .tty []⟩

theorem call_result {L : Logic} {c : Cmd} {e : Ed} (hb : c.builtin = true)
    (h : (Ed.call L c e).2 ≠ .cont) :
    c = .acceptLine ∨ c = .interrupt ∨ (c = .deleteOrAbort ∧ e.line = []) := by
  cases c <;> first
    | exact absurd rfl h
    | exact Or.inl rfl
    | exact Or.inr (Or.inl rfl)
    | (right; right
       refine ⟨rfl, ?_⟩
       simp only [Ed.call] at h
       split at h
       · exact absurd rfl h
       · rename_i hx
         simp only [Ed.len] at hx
         exact List.length_eq_zero_iff.mp (by omega))

theorem units_flatten (s : St) : s.units.flatten = s.ed.text := by
  rw [← St.text_units, St.text_eq]; rfl

/-- One step: if it ends the session, it does so for one of the reasons. -/
theorem step_ends {E : Env} {s s' : St} {r : RLRes} (hb : BuiltinKeys E)
    (h : step E s = .ok (s', some r)) : Ends E s r := by
  cases hi : s.input with
  | nil => rw [step, hi] at h; cases h; exact .exhausted hi
  | cons ev rest =>
    cases ev with
    | err e => rw [step, hi] at h; cases h; exact .error hi
    | resize n => have := (step_resize_ed hi h).1; cases this
    | key k =>
      obtain ⟨h1, h2⟩ := step_key_ed hi rfl (BuiltinKeys.builtin hb k) h
      have hcont : (Ed.call E.logic (lookupCommand E k) { s.ed with input := rest }).2 ≠ .cont := by
        intro hx
        have := (h1 hx).1
        cases this
      have hr := (h2 hcont).1
      simp only [Option.some.injEq] at hr
      rcases call_result (BuiltinKeys.builtin hb k) hcont with hc | hc | ⟨hc, hl⟩
      · rw [hc] at hr
        rw [hr]
        have := Ends.enter (E := E) hi hc
        rw [units_flatten] at this
        exact this
      · rw [hc] at hr
        rw [hr]
        exact .interrupt hi hc
      · have hu : s.units = [] := by
          rw [St.units_eq]
          have : s.line = [] := hl
          rw [this]; rfl
        rw [hc] at hr
        have e1 : Ed.call E.logic .deleteOrAbort { s.ed with input := rest } =
            ({ s.ed with input := rest }, .abort) := by
          simp only [Ed.call]
          rw [if_neg]
          have hl : s.ed.line = [] := hl
          simp [Ed.len, hl]
        rw [e1] at hr
        rw [hr]
        have : (Ed.text { s.ed with input := rest }) = [] := by
          rw [Ed.text]
          have hl : s.ed.line = [] := hl
          simp [hl, lineText]
        rw [this]
        exact .eof hi hc hu

/-- Every result has one of the five causes in the last state. -/
theorem C03 {E : Env} {w : World} {s' : St} {r : RLRes} (hb : BuiltinKeys E)
    (h : readLine E w = .ok (s', r)) : ∃ s, Reachable E w s ∧ Ends E s r := by
  obtain ⟨t, ht, hst⟩ := readLine_reachable h
  exact ⟨t, ht, step_ends hb hst⟩

/-- Each cause ends the session, with the result that belongs to it. -/
theorem C03_ends {E : Env} {s s' : St} {o : Option RLRes} {r : RLRes}
    (he : Ends E s r) (h : step E s = .ok (s', o)) : o = some r := by
  cases he with
  | enter hi hc =>
    have := ((step_key_ed hi hc rfl h).2 (by simp [Ed.call])).1
    rw [units_flatten]
    exact this
  | interrupt hi hc => exact ((step_key_ed hi hc rfl h).2 (by simp [Ed.call])).1
  | @eof k rest hi hc hu =>
    have hl : s.ed.line = [] := by
      rw [St.units_eq] at hu
      exact List.map_eq_nil_iff.mp hu
    have e1 : Ed.call E.logic .deleteOrAbort { s.ed with input := rest } =
        ({ s.ed with input := rest }, .abort) := by
      simp only [Ed.call]
      rw [if_neg]
      simp [Ed.len, hl]
    have := ((step_key_ed hi hc rfl h).2 (by rw [e1]; simp)).1
    rw [e1] at this
    have ht : (Ed.text { s.ed with input := rest }) = [] := by
      simp [Ed.text, hl, lineText]
    rw [ht] at this
    exact this
  | error hi => rw [step, hi] at h; cases h; rfl
  | exhausted hi => rw [step, hi] at h; cases h; rfl

/-- A key bound to any other command, or Ctrl-D on a line with text, and a resize do not end
the session. -/
theorem C03_goes_on {E : Env} {s s' : St} {o : Option RLRes} (hb : BuiltinKeys E)
    (hn : ∀ r, ¬ Ends E s r) (h : step E s = .ok (s', o)) : o = none := by
  cases o with
  | none => rfl
  | some r => exact absurd (step_ends hb h) (hn r)

/-- `ReadLine` when the Tty cannot be opened or measured: the empty string and that error. -/
theorem C03_open {E : Env} {e : Bytes} {x : Option Bytes} {w : World} :
    ∃ out, readLineFull E (some e) x w = .ok (out, ⟨[], .tty e⟩) := ⟨_, rfl⟩

theorem C03_size {E : Env} {e : Bytes} {w : World} :
    ∃ out, readLineFull E none (some e) w = .ok (out, ⟨[], .tty e⟩) := ⟨_, rfl⟩

section
open Example

example : outcome (readLine (env plain) { input := keys ["a", "b", "\x02", "c", "\x0d"] }) =
    .inr (b "acb", .nil) := by decide +kernel
example : outcome (readLine (env plain) { input := keys ["a", "b", "\x03", "c"] }) =
    .inr ([], .ctrlC) := by decide +kernel
example : outcome (readLine (env plain) { input := keys ["a", "\x08", "\x04", "c"] }) =
    .inr ([], .eof) := by decide +kernel
/-- Ctrl-D with text deletes; the failing Tty ends the session. -/
example : outcome (readLine (env plain) { input := keys ["a", "b", "\x01", "\x04"] ++ [.err [7]] }) =
    .inr ([], .tty [7]) := by decide +kernel

end
end Readline
