import Verif.Proof.Threads
import Verif.Proof.Invariant
/-!
# A sequence of commands and callbacks is a session with the resizes among the keys

The events of a session (`readLine`) are keys and resizes in one list.  Every sequence of whole
commands and callbacks is such a session: there is a place among the keys for every resize.
-/
namespace Readline
open Spec

variable {E : Env} {w : World}

theorem startFrom_io (s : St) (i : List Ev) (p : List Tok) :
    startFrom E (s.io i p) = under1 i p (startFrom E s) := by
  unfold startFrom
  rw [callPromptWriter_io]
  generalize callPromptWriter E s = q
  obtain ⟨top, t⟩ := q
  dsimp only
  have hcont : ∀ t : St, (insertString E (t.io i p) 0 E.default >>= fun a =>
      repaintAfterPrompt E (if a.1.cursor > a.1.len then { a.1 with cursor := a.1.len } else a.1) >>= fun s =>
      pure (s.emit .cursorOn)) = under1 i p (insertString E t 0 E.default >>= fun a =>
      repaintAfterPrompt E (if a.1.cursor > a.1.len then { a.1 with cursor := a.1.len } else a.1) >>= fun s =>
      pure (s.emit .cursorOn)) := by
    intro t
    rw [insertString_io]
    refine under_bind fun a => ?_
    dsimp only
    have h2 : (if (a.1.io i p).cursor > (a.1.io i p).len then { a.1.io i p with cursor := (a.1.io i p).len }
        else a.1.io i p) = (if a.1.cursor > a.1.len then { a.1 with cursor := a.1.len } else a.1).io i p :=
      io_ite Iff.rfl rfl rfl
    rw [h2, repaintAfterPrompt_io]
    refine under_bind fun b => ?_
    rw [emit_io]
    rfl
  cases E.promptErr with
  | some e =>
    dsimp only
    rw [emit_io]
    exact hcont { t.emit (.lit (e ++ [0x0A, 0x24, 0x20])) with topColumn := 2 }
  | none =>
    dsimp only
    by_cases hw : top ≥ t.termWidth - 3
    · have hw' : top ≥ (t.io i p).termWidth - 3 := hw
      rw [if_pos hw, if_pos hw', emit_io]
      exact hcont { t.emit (.lit [0x0A]) with topColumn := 0 }
    · have hw' : ¬ top ≥ (t.io i p).termWidth - 3 := hw
      rw [if_neg hw, if_neg hw']
      exact hcont { t with topColumn := top }

/-- The start with other input. -/
theorem startSt_io (w : World) (i : List Ev) (p : List Tok) :
    startSt E { w with input := i, out := p ++ w.out } = under1 i p (startSt E w) := by
  have h1 := startFrom_eq (E := E) (w := w) w.termWidth
  have h2 := startFrom_eq (E := E) (w := { w with input := i, out := p ++ w.out }) w.termWidth
  have h3 := startFrom_io (E := E) { bufferSt E w with termWidth := w.termWidth } i p
  rw [h1] at h3
  exact (h2.symm.trans h3)

theorem execCmd_out (hb : BuiltinKeys E) (k : Bytes) : OutBlind (execCmd E (lookupCommand E k)) := by
  intro s p
  rw [execCmd_eq, execCmd_eq, lockedPart_out (fun k f h => absurd h (hb k f))]
  cases lockedPart E k s with
  | error e => rfl
  | ok a =>
    obtain ⟨t, o⟩ := a
    cases o with
    | none => rfl
    | some r =>
      show Except.ok (deferred (t.wrote p), some r) = Except.ok ((deferred t).wrote p, some r)
      unfold deferred
      rw [wrote_emit, wrote_emit]

theorem noResize_append (a b : List Ev) : noResize (a ++ b) = noResize a ++ noResize b := by
  induction a with
  | nil => rfl
  | cons x a ih => cases x <;> simp [noResize, ih]

theorem noResize_left {a b : List Ev} (h : noResize (a ++ b) = a ++ b) : noResize a = a ∧ noResize b = b := by
  induction a with
  | nil => exact ⟨rfl, h⟩
  | cons x a ih =>
    cases x with
    | resize w => exact absurd h noResize_resize
    | key k =>
      have := ih (noResize_cons h)
      exact ⟨by simp [noResize, this.1], this.2⟩
    | err k =>
      have := ih (noResize_cons h)
      exact ⟨by simp [noResize, this.1], this.2⟩

/-- A command in a session with resizes queued behind the keys it takes. -/
theorem exec_merge (hb : BuiltinKeys E) {s s' : St} {k : Bytes} {rest : List Ev} {o : Option RLRes}
    (hn : noResize rest = rest)
    (h : execCmd E (lookupCommand E k) { s.emit .await with input := rest } = .ok (s', o)) :
    ∃ u, rest = u ++ s'.input ∧ ∀ C t, noResize C = s'.input → kept s = kept t → seenOut s.out = seenOut t.out →
      t.input = .key k :: (u ++ C) → ∃ t', step E t = .ok (t', o) ∧ AsIf s' t' ∧ t'.input = C := by
  obtain ⟨c, hc⟩ : ∃ c : St, c = { kept s with input := rest } := ⟨_, rfl⟩
  have h1 : ({ s.emit .await with input := rest } : St) = c.wrote (s.out ++ [.await]) := by
    rw [hc]; simp [kept, St.wrote, St.io, St.emit]
  rw [h1, execCmd_out hb] at h
  cases hx : execCmd E (lookupCommand E k) c with
  | error e => rw [hx] at h; cases h
  | ok a =>
    rw [hx] at h
    injection h with h
    obtain ⟨h2, h3⟩ := Prod.ext_iff.mp h
    dsimp only at h2 h3
    obtain ⟨c', o'⟩ := a
    dsimp only at h2 h3
    subst h3 h2
    have hci : c.input = rest := by rw [hc]
    obtain ⟨u, hu, H⟩ := execCmd_takes (BuiltinKeys.builtin hb k) (by rw [hci]; exact hn) hx
    refine ⟨u, hci.symm.trans hu, fun C t hC hk ho ht => ?_⟩
    have h4 : ({ t.emit .await with input := u ++ C } : St) = c.io (u ++ C) (t.out ++ [.await]) := by
      have h5 : ({ t.emit .await with input := u ++ C } : St) =
          { kept t with input := u ++ C, out := t.out ++ [.await] } := rfl
      rw [h5, ← hk, hc]
      simp [kept, St.io]
    refine ⟨c'.io C (t.out ++ [.await]), ?_, ⟨rfl, ?_⟩, rfl⟩
    · unfold step
      rw [ht]
      show execCmd E (lookupCommand E k) { t.emit .await with input := u ++ C } = _
      rw [h4]
      exact H C _ hC
    · show seenOut (s.out ++ [.await] ++ c'.out) = seenOut (t.out ++ [.await] ++ c'.out)
      rw [seenOut_append, seenOut_append, seenOut_append (t.out ++ _), seenOut_append t.out, ho]

theorem onResize_input {s s' : St} {w' : Int} (h : onResize E s w' = .ok s') : s'.input = s.input := by
  have h1 := onResize_io (E := E) (i := s.input) (p := []) s w'
  rw [io_self, h] at h1
  have h3 : s' = s'.io s.input [] := by injection h1
  rw [h3]; rfl

/-- A callback in a session. -/
theorem resize_merge {s s' : St} {w' : Int} (h : onResize E s w' = .ok s') {C : List Ev} {t : St}
    (hk : kept s = kept t) (ho : seenOut s.out = seenOut t.out) (ht : t.input = .resize w' :: C) :
    ∃ t', step E t = .ok (t', none) ∧ AsIf s' t' ∧ t'.input = C := by
  have h1 := onResize_io (E := E) (i := s.input) (p := s.out) (kept s) w'
  rw [← kept_io, h] at h1
  cases hx : onResize E (kept s) w' with
  | error e => rw [hx] at h1; cases h1
  | ok c =>
    rw [hx] at h1
    injection h1 with h1
    subst h1
    have h2 : ({ t with input := C } : St) = (kept s).io C t.out := by
      rw [hk]; simp [kept, St.io]
    refine ⟨c.io C t.out, ?_, ⟨rfl, ?_⟩, rfl⟩
    · unfold step
      rw [ht]
      show (onResize E { t with input := C } w' >>= fun s => pure (s, none)) = _
      rw [h2, onResize_io, hx]
      rfl
    · show seenOut (s.out ++ c.out) = seenOut (t.out ++ c.out)
      rw [seenOut_append, seenOut_append, ho]

theorem lockedPart_exec {k : Bytes} {s s' : St} {o : Option RLRes} (h : lockedPart E k s = .ok (s', o)) :
    execCmd E (lookupCommand E k) s =
      .ok (if o.isSome then deferred s' else s', o) := by
  rw [execCmd_eq, h]
  cases o <;> rfl

/-- The keys that are left in a sequence. -/
theorem serial_keys (hb : BuiltinKeys E) (hn : noResize w.input = w.input) {ops : List Op} {o : Option RLRes} {s : St}
    (h : Serial E w ops o s) : noResize s.input = s.input := by
  induction h with
  | start h => rw [startSt_input h]; exact hn
  | @key ops s k rest s' o h1 h2 h3 ih =>
    rw [h2] at ih
    have h4 := noResize_cons ih
    obtain ⟨u, hu, -⟩ := exec_merge hb h4 (lockedPart_exec h3)
    cases o with
    | none => rw [hu] at h4; exact (noResize_left h4).2
    | some r => rw [hu] at h4; exact (noResize_left h4).2
  | resize h1 h2 ih => rw [onResize_input h2]; exact ih

/-- A sequence that goes on is a session. -/
theorem serial_session (hb : BuiltinKeys E) (hn : noResize w.input = w.input) {ops : List Op} {o : Option RLRes} {s : St}
    (h : Serial E w ops o s) (ho : o = none) (C : List Ev) (hC : noResize C = s.input) :
    ∃ evs, noResize evs = w.input ∧ ∃ t, Reachable E { w with input := evs } t ∧ AsIf s t ∧ t.input = C := by
  induction h generalizing C with
  | @start s h =>
    rw [startSt_input h] at hC
    have h1 := startSt_io (E := E) w C []
    rw [h] at h1
    exact ⟨C, hC, s.io C [], .start h1, ⟨rfl, rfl⟩, rfl⟩
  | @key ops s k rest s' o h1 h2 h3 ih =>
    subst ho
    have hk := serial_keys hb hn h1
    rw [h2] at hk
    have h4 := noResize_cons hk
    obtain ⟨u, hu, H⟩ := exec_merge hb h4 (lockedPart_exec h3)
    have hu' : noResize u = u := by rw [hu] at h4; exact (noResize_left h4).1
    obtain ⟨evs, he, t, ht, hst, hti⟩ := ih rfl (.key k :: (u ++ C)) (by
      rw [h2]
      show Ev.key k :: noResize (u ++ C) = _
      rw [noResize_append, hu', hC]
      exact congrArg (Ev.key k :: ·) hu.symm)
    obtain ⟨t', h5, h6, h7⟩ := H C t hC hst.1 hst.2 hti
    exact ⟨evs, he, t', .step ht h5, h6, h7⟩
  | @resize ops o s w' s' h1 h2 ih =>
    subst ho
    obtain ⟨evs, he, t, ht, hst, hti⟩ := ih rfl (.resize w' :: C) (by
      show noResize C = _
      rw [hC, onResize_input h2])
    obtain ⟨t', h5, h6, h7⟩ := resize_merge h2 hst.1 hst.2 hti
    exact ⟨evs, he, t', .step ht h5, h6, h7⟩

/-- A state of a session from which the next step gives a result. -/
theorem readLine_of_step (hb : BuiltinKeys E) {t : St} (ht : Reachable E w t) {x : M (St × Option RLRes)}
    (hx : step E t = x) : (∀ t' r, x = .ok (t', some r) → readLine E w = .ok (t', r)) ∧
      (∀ e, x = .error e → readLine E w = .error e) := by
  have h : ∃ n, t.input.length < n ∧ readLine E w = loop E n t := by
    clear hx
    induction ht with
    | @start s h => exact ⟨s.input.length + 1, Nat.lt_succ_self _, by unfold readLine; rw [h]; rfl⟩
    | @step s s' h1 h2 ih =>
      obtain ⟨n, hn, h3⟩ := ih
      obtain ⟨n, rfl⟩ : ∃ m, n = m + 1 := ⟨n - 1, by omega⟩
      have := step_input hb h2
      refine ⟨n, by omega, ?_⟩
      rw [h3, loop, h2]
      rfl
  obtain ⟨n, hn, h3⟩ := h
  obtain ⟨n, rfl⟩ : ∃ m, n = m + 1 := ⟨n - 1, by omega⟩
  refine ⟨fun t' r h => ?_, fun e h => ?_⟩
  · rw [h3, loop, hx, h]; rfl
  · rw [h3, loop, hx, h]; rfl

/-- A sequence that came to a result is a session with this result. -/
theorem serial_result (hb : BuiltinKeys E) (hn : noResize w.input = w.input) {ops : List Op} {o : Option RLRes} {s : St}
    (h : Serial E w ops o s) {r : RLRes} (ho : o = some r) :
    ∃ evs, noResize evs = w.input ∧ ∃ t, readLine E { w with input := evs } = .ok (t, r) := by
  induction h with
  | start h => cases ho
  | @key ops s k rest s' o h1 h2 h3 ih =>
    subst ho
    have hk := serial_keys hb hn h1
    rw [h2] at hk
    have h4 := noResize_cons hk
    obtain ⟨u, hu, H⟩ := exec_merge hb h4 (lockedPart_exec h3)
    have hu' : noResize u = u ∧ noResize s'.input = s'.input := by rw [hu] at h4; exact noResize_left h4
    obtain ⟨evs, he, t, ht, hst, hti⟩ := serial_session hb hn h1 rfl (.key k :: (u ++ s'.input)) (by
      rw [h2]
      show Ev.key k :: noResize (u ++ s'.input) = _
      rw [noResize_append, hu'.1, hu'.2]
      exact congrArg (Ev.key k :: ·) hu.symm)
    obtain ⟨t', h5, h6, h7⟩ := H s'.input t hu'.2 hst.1 hst.2 hti
    exact ⟨evs, he, t', (readLine_of_step hb ht h5).1 t' r rfl⟩
  | resize h1 h2 ih => exact ih ho

/-- A sequence that stops because no key can be read is a session that stops so. -/
theorem serial_ttyErr (hb : BuiltinKeys E) (hn : noResize w.input = w.input) {ops : List Op} {s : St}
    (h : Serial E w ops none s) {r : RLRes} (hr : TtyErr s r) :
    ∃ evs, noResize evs = w.input ∧ ∃ t, readLine E { w with input := evs } = .ok (t, r) := by
  obtain ⟨evs, he, t, ht, hst, hti⟩ := serial_session hb hn h rfl s.input (serial_keys hb hn h)
  refine ⟨evs, he, ?_⟩
  rcases hr with ⟨h1, h2⟩ | ⟨e, rest, h1, h2⟩
  · have : step E t = .ok (deferred (t.emit .await), some r) := by
      unfold step; rw [hti, h1, h2]; rfl
    exact ⟨_, (readLine_of_step hb ht this).1 _ r rfl⟩
  · have : step E t = .ok (deferred { t.emit .await with input := rest }, some r) := by
      unfold step; rw [hti, h1, h2]; rfl
    exact ⟨_, (readLine_of_step hb ht this).1 _ r rfl⟩

/-- A sequence that stops with a panic while the line is edited is a session with this panic. -/
theorem serial_panic_key (hb : BuiltinKeys E) (hn : noResize w.input = w.input) {ops : List Op} {s : St}
    (h : Serial E w ops none s) {k : Bytes} {rest : List Ev} {e : Panic} (hi : s.input = .key k :: rest)
    (he : lockedPart E k { s.emit .await with input := rest } = .error e) :
    ∃ evs, noResize evs = w.input ∧ ∃ e', readLine E { w with input := evs } = .error e' ∧ e'.kind = e.kind := by
  obtain ⟨evs, hev, t, ht, hst, hti⟩ := serial_session hb hn h rfl s.input (serial_keys hb hn h)
  refine ⟨evs, hev, ?_⟩
  have h1 : execCmd E (lookupCommand E k) { s.emit .await with input := rest } = .error e := by
    rw [execCmd_eq, he]; rfl
  obtain ⟨c, hc⟩ : ∃ c : St, c = { kept s with input := rest } := ⟨_, rfl⟩
  have h2 : ({ s.emit .await with input := rest } : St) = c.wrote (s.out ++ [.await]) := by
    rw [hc]; simp [kept, St.wrote, St.io, St.emit]
  have h3 : ({ t.emit .await with input := rest } : St) = c.wrote (t.out ++ [.await]) := by
    have h5 : ({ t.emit .await with input := rest } : St) =
        { kept t with input := rest, out := t.out ++ [.await] } := rfl
    rw [h5, ← hst.1, hc]
    simp [kept, St.io, St.wrote]
  rw [h2, execCmd_out hb] at h1
  cases hx : execCmd E (lookupCommand E k) c with
  | ok a => rw [hx] at h1; cases h1
  | error e1 =>
    rw [hx] at h1
    injection h1 with h1
    have h4 : step E t = .error ⟨e1.kind, e1.st.wrote (t.out ++ [.await])⟩ := by
      unfold step
      rw [hti, hi]
      show execCmd E (lookupCommand E k) { t.emit .await with input := rest } = _
      rw [h3, execCmd_out hb, hx]
      rfl
    exact ⟨_, (readLine_of_step hb ht h4).2 _ rfl, by rw [← h1]⟩

theorem serial_panic_resize (hb : BuiltinKeys E) (hn : noResize w.input = w.input) {ops : List Op} {s : St}
    (h : Serial E w ops none s) {w' : Int} {e : Panic} (he : onResize E s w' = .error e) :
    ∃ evs, noResize evs = w.input ∧ ∃ e', readLine E { w with input := evs } = .error e' ∧ e'.kind = e.kind := by
  obtain ⟨evs, hev, t, ht, hst, hti⟩ := serial_session hb hn h rfl (.resize w' :: s.input) (serial_keys hb hn h)
  refine ⟨evs, hev, ?_⟩
  have h1 := onResize_io (E := E) (i := s.input) (p := s.out) (kept s) w'
  rw [← kept_io, he] at h1
  cases hx : onResize E (kept s) w' with
  | ok a => rw [hx] at h1; cases h1
  | error e1 =>
    rw [hx] at h1
    injection h1 with h1
    have h2 : ({ t with input := s.input } : St) = (kept s).io s.input t.out := by
      rw [hst.1]; simp [kept, St.io]
    have h4 : step E t = .error ⟨e1.kind, e1.st.io s.input t.out⟩ := by
      unfold step
      rw [hti]
      show (onResize E { t with input := s.input } w' >>= fun s => pure (s, none)) = _
      rw [h2, onResize_io, hx]
      rfl
    exact ⟨_, (readLine_of_step hb ht h4).2 _ rfl, by rw [h1]⟩

end Readline
