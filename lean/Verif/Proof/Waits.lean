import Verif.Proof.Trace
import Verif.Proof.SafeCall
import Verif.Proof.Input
import Verif.Spec.Visible
/-!
# What the commands that read keys write and read, and that they end
-/
namespace Readline
open Spec

theorem visible_append (v : Bool) (a c : List Tok) : visible v (a ++ c) = visible (visible v a) c := by
  induction a generalizing v with
  | nil => rfl
  | cons x a ih => cases x <;> simp [visible, ih]

theorem waitsSeen_append (v : Bool) (a c : List Tok) :
    waitsSeen v (a ++ c) = (waitsSeen v a && waitsSeen (visible v a) c) := by
  induction a generalizing v with
  | nil => rfl
  | cons x a ih => cases x <;> simp [visible, waitsSeen, ih, Bool.and_assoc]

theorem quiet_visible {v : Bool} {t : List Tok} (h : ∀ x ∈ t, x.quiet = true) : visible v t = v := by
  induction t with
  | nil => rfl
  | cons x t ih =>
    have hx := h x (by simp)
    have ht := ih (fun y hy => h y (by simp [hy]))
    cases x <;> first | exact ht | exact absurd hx (by decide)

theorem quiet_waits {v : Bool} {t : List Tok} (h : ∀ x ∈ t, x.quiet = true) : waitsSeen v t = true := by
  induction t with
  | nil => rfl
  | cons x t ih =>
    have hx := h x (by simp)
    have ht := ih (fun y hy => h y (by simp [hy]))
    cases x <;> first | exact ht | exact absurd hx (by decide)

theorem popKey_noResize {evs rest : List Ev} {ev : Ev} (h : popKey evs = some (ev, rest)) :
    noResize evs = ev :: noResize rest ∧ resizesIn evs = resizesIn rest ∧ ∀ w, ev ≠ .resize w := by
  induction evs generalizing ev rest with
  | nil => cases h
  | cons x evs ih =>
    cases x with
    | resize w =>
      rw [popKey] at h
      cases hp : popKey evs with
      | none => rw [hp] at h; cases h
      | some p =>
        obtain ⟨ev', rest'⟩ := p
        rw [hp] at h
        cases h
        obtain ⟨h1, h2, h3⟩ := ih hp
        exact ⟨by rw [noResize, h1]; rfl, by rw [resizesIn, h2]; rfl, h3⟩
    | key k =>
      have : popKey (.key k :: evs) = some (.key k, evs) := by simp [popKey]
      rw [this] at h; cases h
      exact ⟨rfl, rfl, by intro w hw; cases hw⟩
    | err k =>
      have : popKey (.err k :: evs) = some (.err k, evs) := by simp [popKey]
      rw [this] at h; cases h
      exact ⟨rfl, rfl, by intro w hw; cases hw⟩

/-- A command that may read keys: the output keeps to the rule that the cursor is visible
whenever a key is awaited, keys are taken from the front, and resizes stay. -/
structure Spoke (s s' : St) : Prop where
  out : ∃ t, s'.out = s.out ++ t ∧ waitsSeen false t = true
  keys : ∃ used, noResize s.input = used ++ noResize s'.input
  resizes : resizesIn s'.input = resizesIn s.input

namespace Spoke

theorem refl (s : St) : Spoke s s := ⟨⟨[], by simp, rfl⟩, ⟨[], rfl⟩, rfl⟩

end Spoke

/-- As `Spoke`, with the visibility before and after. -/
structure Talk (v v' : Bool) (s s' : St) : Prop where
  out : ∃ t, s'.out = s.out ++ t ∧ waitsSeen v t = true ∧ visible v t = v'
  keys : ∃ used, noResize s.input = used ++ noResize s'.input
  resizes : resizesIn s'.input = resizesIn s.input
  width : s'.termWidth = s.termWidth

namespace Talk
variable {v v1 v2 : Bool} {s s1 s2 : St}

theorem refl : Talk v v s s := ⟨⟨[], by simp, rfl, rfl⟩, ⟨[], rfl⟩, rfl, rfl⟩

theorem trans (h1 : Talk v v1 s s1) (h2 : Talk v1 v2 s1 s2) : Talk v v2 s s2 := by
  obtain ⟨⟨t1, a1, b1, c1⟩, ⟨u1, d1⟩, e1, w1⟩ := h1
  obtain ⟨⟨t2, a2, b2, c2⟩, ⟨u2, d2⟩, e2, w2⟩ := h2
  refine ⟨⟨t1 ++ t2, by rw [a2, a1, List.append_assoc], ?_, ?_⟩, ⟨u1 ++ u2, ?_⟩, by rw [e2, e1], by rw [w2, w1]⟩
  · rw [waitsSeen_append, b1, c1, b2]; rfl
  · rw [visible_append, c1, c2]
  · rw [d1, d2, List.append_assoc]

theorem of_quiet (h : Quiet s s1) : Talk v v s s1 := by
  obtain ⟨⟨t, a, b⟩, i, w⟩ := h
  exact ⟨⟨t, a, quiet_waits b, quiet_visible b⟩, ⟨[], by rw [i]; rfl⟩, by rw [i], w⟩

theorem emit_on (h : Talk v v1 s s1) : Talk v true s (s1.emit .cursorOn) :=
  h.trans ⟨⟨[.cursorOn], rfl, rfl, rfl⟩, ⟨[], rfl⟩, rfl, rfl⟩

theorem emit_off (h : Talk v v1 s s1) : Talk v false s (s1.emit .cursorOff) :=
  h.trans ⟨⟨[.cursorOff], rfl, rfl, rfl⟩, ⟨[], rfl⟩, rfl, rfl⟩

theorem emit_await (h : Talk v true s s1) : Talk v true s (s1.emit .await) :=
  h.trans ⟨⟨[.await], rfl, rfl, rfl⟩, ⟨[], rfl⟩, rfl, rfl⟩

theorem emit (h : Talk v v1 s s1) {t : Tok} (ht : t.quiet = true := by rfl) :
    Talk v v1 s (s1.emit t) := h.trans (of_quiet ((Quiet.refl _).emit ht))

theorem of (h : Talk v v1 s s1) (ho : s2.out = s1.out := by rfl)
    (hi : s2.input = s1.input := by rfl) (hw : s2.termWidth = s1.termWidth := by rfl) : Talk v v1 s s2 :=
  h.trans (of_quiet ((Quiet.refl _).of ho hi hw))

theorem quiet (h : Talk v v1 s s1) (hq : Quiet s1 s2) : Talk v v1 s s2 := h.trans (of_quiet hq)

theorem getKey (h : Talk v true s s1) : Talk v true s (getKey s1).2 := by
  unfold Readline.getKey
  dsimp only
  have h1 := h.emit_await
  have hi : (s1.emit .await).input = s1.input := rfl
  cases hp : popKey (s1.emit .await).input with
  | none => exact h1
  | some p =>
    obtain ⟨ev, rest⟩ := p
    obtain ⟨e1, e2, _⟩ := popKey_noResize hp
    have : Talk v true s { s1.emit .await with input := rest } :=
      h1.trans ⟨⟨[], by simp, rfl, rfl⟩, ⟨[ev], e1⟩, e2.symm, rfl⟩
    cases ev <;> exact this

end Talk

theorem Wp.talk {v v1 : Bool} {s s1 : St} {x : M α} {g : α → St} (h : Talk v v1 s s1)
    (hx : Wp Halts x (fun a => Quiet s1 (g a))) : Wp Halts x (fun a => Talk v v1 s (g a)) :=
  Wp.mono hx fun _ _ hq => h.quiet hq

variable {E : Env}

theorem cmdQuotedInsert_talk (s : St) :
    Wp Halts (cmdQuotedInsert E s) (fun p => Talk false false s p.1) := by
  unfold cmdQuotedInsert
  dsimp only
  have h := (Talk.emit_on (Talk.refl (s := s) (v := false))).getKey
  generalize getKey (s.emit .cursorOn) = g at *
  obtain ⟨k, s1⟩ := g
  cases k with
  | none => exact h.emit_off
  | some k =>
    dsimp only
    refine Wp.seq (Wp.talk h (cmdSelfInsert_q (Quiet.refl s1) k)) fun p h1 => ?_
    exact h1.emit_off

theorem isearchLoop_talk {s0 : St} (n : Nat) (it : ISt) (s : St) (hit : it.ok E)
    (hn : s.input.length < n) (h0 : Talk false false s0 s) :
    Wp Halts (isearchLoop E n it s) (fun p => Talk false true s0 p.1 ∨ Talk false false s0 p.1) := by
  induction n generalizing it s with
  | zero => omega
  | succ n ih =>
    unfold isearchLoop
    refine Wp.seq (P := Quiet s) (drawLoop_q _ _ (Quiet.refl s)) fun s1 h1 => ?_
    dsimp only
    have h2 := (((h0.quiet h1).emit (t := .eraseEol)).emit_on).getKey
    have hlen := @getKey_length ((s1.emit .eraseEol).emit .cursorOn)
    unfold eraseline
    generalize hg : getKey ((s1.emit .eraseEol).emit .cursorOn) = g at *
    obtain ⟨ok, s2⟩ := g
    cases ok with
    | none => exact Wp.pure (Or.inl h2)
    | some key =>
      dsimp only
      have hl3 : (gotoHead (s2.emit .cursorOff)).input.length < n := by
        have h3 := @hlen key s2 rfl
        have h4 : ((s1.emit .eraseEol).emit .cursorOn).input = s1.input := rfl
        rw [h4, h1.input] at h3
        show s2.input.length < n
        omega
      have h3 : Talk false false s0 (gotoHead (s2.emit .cursorOff)) := h2.emit_off.emit
      generalize gotoHead (s2.emit .cursorOff) = s3 at *
      split
      · exact ih _ _ (isearchUpdate_ok (it := { it with search := chopLast it.search })
          ⟨hit.1, hit.2.1, hit.2.2.1, hit.2.2.2.1, nine_chopLast hit.2.2.2.2⟩ _) hl3 h3
      · split
        · refine Wp.seq (Wp.talk (g := id) (h3.of (s2 := { s3 with
              viewStart := 0, undoes := { pos := 0, del := 0, text := s3.text } :: s3.undoes
              buf := [], cursor := 0 }))
            (replaceAndRepaint_q (Quiet.refl _) _ _)) fun s4 h4 => ?_
          exact Or.inr h4
        · split
          · refine Wp.seq (getView2_h E _) fun p _ => ?_
            refine Wp.seq (Wp.talk (g := id) h3 (puts_q (Quiet.refl _) _ _)) fun s4 h4 => ?_
            refine Wp.seq (Wp.talk (g := id) ((h4.emit (t := .eraseEol)).emit
              (t := .gotoCol ((s4.emit .eraseEol).topColumn + 1)))
              (puts_q (Quiet.refl _) _ _)) fun s5 h5 => ?_
            exact Or.inr h5
          · split
            · obtain ⟨q1, q2, q3⟩ := hit
              refine Wp.bind (Wp.mono (isearchPrev_wp ⟨q1, q2, q3⟩ _ _ (by omega) (by omega) ?_ (by omega)) ?_)
              · have : E.histLen = E.history.length := rfl
                split <;> omega
              · intro it' _ hit'
                exact ih _ _ hit' hl3 h3
            · split
              · obtain ⟨q1, q2, q3⟩ := hit
                refine Wp.bind (Wp.mono (isearchNext_wp ⟨q1, q2, q3⟩ _ _ (by omega) ?_ (by omega)) ?_)
                · have : E.histLen = E.history.length := rfl
                  omega
                · intro it' _ hit'
                  exact ih _ _ hit' hl3 h3
              · split
                · exact ih _ _ hit hl3 h3
                · rename_i hctl
                  refine ih _ _ (isearchUpdate_ok (it := { it with
                    search := it.search ++ encodeRune (decodeRune key).1 })
                    ⟨hit.1, hit.2.1, hit.2.2.1, hit.2.2.2.1, ?_⟩ _) hl3 h3
                  simp only [List.mem_append, not_or]
                  refine ⟨hit.2.2.2.2, nine_encodeRune ?_⟩
                  intro e
                  rw [e] at hctl
                  exact hctl (by decide)

/-- Every built-in command, started with the cursor hidden, from any state. -/
theorem call_talk {c : Cmd} (hb : c.builtin = true) (s : St) :
    Wp Halts (Cmd.call E c s) (fun p => Talk false true s p.1 ∨ Talk false false s p.1) := by
  by_cases hq : c = .quotedInsert
  · subst hq
    exact Wp.mono (cmdQuotedInsert_talk s) fun _ _ h => Or.inr h
  · by_cases hs : c = .isearchBackward
    · subst hs
      refine isearchLoop_talk _ _ _ ⟨?_, ?_, ?_, Or.inl rfl, List.not_mem_nil⟩
        (by show s.input.length < _; omega) (Talk.refl.emit)
      · show (-1 : Int) ≤ E.histLen - 1; unfold Env.histLen; omega
      · show E.histLen - 1 < E.histLen; omega
      · show E.histLen - 1 = -1 → _; omega
    · exact Wp.mono (call_quiet hb hq hs s) fun _ _ h => Or.inr (Talk.of_quiet h)

theorem finish_talk {s0 : St} {v : Bool} {s : St} (h : Talk v true s0 s) (rc : Result) :
    Wp Halts (finish E s rc) (fun p => Talk v true s0 p.1) := by
  unfold finish
  have last : ∀ s1, Talk v true s0 s1 → Wp Halts (do
      let s1 := match E.lineFeed with
        | some f => s1.emit (.lit (f rc))
        | none => s1.emit (.lit [0x0A])
      let s1 := s1.emit .flush
      let text := s1.text
      let err := match rc with
        | .enter => RLErr.nil
        | .intr => .ctrlC
        | _ => .eof
      return (deferred s1, ({ text := text, err := err } : RLRes)) : M (St × RLRes))
      (fun p => Talk v true s0 p.1) := by
    intro s1 h1
    refine Wp.pure ?_
    refine Talk.emit (Talk.emit_on (v1 := true) (Talk.emit ?_))
    cases E.lineFeed with
    | none => exact h1.emit
    | some f => exact h1.emit
  cases s.suffix with
  | none => exact last s h
  | some x => exact Wp.seq (Wp.talk (g := id) (h.of) (repaintNoSuffix_q (Quiet.refl _))) last

/-- What a whole step writes and reads: as `Talk`, but resizes may be taken too. -/
structure Says (v v' : Bool) (s s' : St) : Prop where
  out : ∃ t, s'.out = s.out ++ t ∧ waitsSeen v t = true ∧ visible v t = v'
  keys : ∃ used, noResize s.input = used ++ noResize s'.input
  resizes : ∀ n, .resize n ∈ s'.input → .resize n ∈ s.input
  width : s'.termWidth = s.termWidth ∨ .resize s'.termWidth ∈ s.input

theorem mem_resizesIn {n : Int} (evs : List Ev) : .resize n ∈ resizesIn evs ↔ .resize n ∈ evs := by
  induction evs with
  | nil => rfl
  | cons x evs ih => cases x <;> simp [resizesIn, ih]

theorem Talk.says {v v' : Bool} {s s' : St} (h : Talk v v' s s') : Says v v' s s' :=
  ⟨h.out, h.keys, fun n hn => (mem_resizesIn _).mp (h.resizes ▸ (mem_resizesIn _).mpr hn), Or.inl h.width⟩

theorem Says.trans {v v1 v2 : Bool} {s s1 s2 : St} (h1 : Says v v1 s s1) (h2 : Says v1 v2 s1 s2) :
    Says v v2 s s2 := by
  obtain ⟨⟨t1, a1, b1, c1⟩, ⟨u1, d1⟩, i1, w1⟩ := h1
  obtain ⟨⟨t2, a2, b2, c2⟩, ⟨u2, d2⟩, i2, w2⟩ := h2
  refine ⟨⟨t1 ++ t2, by rw [a2, a1, List.append_assoc], ?_, ?_⟩, ⟨u1 ++ u2, ?_⟩, fun n h => i1 n (i2 n h), ?_⟩
  · rw [waitsSeen_append, b1, c1, b2]; rfl
  · rw [visible_append, c1, c2]
  · rw [d1, d2, List.append_assoc]
  · rcases w2 with w2 | w2
    · rw [w2]; exact w1
    · exact Or.inr (i1 _ w2)

/-- One step, from any state in which the cursor is visible. -/
theorem step_says (hb : ∀ k, (lookupCommand E k).builtin = true) (s : St) :
    Wp Halts (step E s) (fun p => Says true true s p.1) := by
  unfold step
  cases hi : s.input with
  | nil => exact (Talk.emit (Talk.emit_on (Talk.emit_await Talk.refl))).says
  | cons ev rest =>
    cases ev with
    | err x =>
      refine Wp.pure (Talk.says (Talk.emit (Talk.emit_on (v1 := true) ?_)))
      refine Talk.trans (s1 := s.emit .await) (Talk.emit_await Talk.refl)
        ⟨⟨[], by simp, rfl, rfl⟩, ⟨[.err x], ?_⟩, ?_, rfl⟩
      · show noResize s.input = _; rw [hi]; rfl
      · show resizesIn rest = resizesIn s.input; rw [hi]; rfl
    | resize w =>
      dsimp only
      have h0 : Says true true s { s with input := rest, termWidth := w } :=
        ⟨⟨[], by simp, rfl, rfl⟩, ⟨[], by rw [hi]; rfl⟩, fun n h => by rw [hi]; exact List.mem_cons_of_mem _ h,
          Or.inr (by rw [hi]; exact List.mem_cons_self)⟩
      refine Wp.seq (P := Quiet { s with input := rest, termWidth := w }) ?_ fun s1 h1 => ?_
      · unfold onResize
        exact repaintLastLine_q ((Quiet.refl _).of)
      · exact h0.trans (Talk.of_quiet h1).says
    | key k =>
      dsimp only
      unfold execCmd
      have h0 : Talk true false s (({ s.emit .await with input := rest }).emit .cursorOff) := by
        refine Talk.emit_off (v1 := true) ?_
        refine Talk.trans (s1 := s.emit .await) (Talk.emit_await Talk.refl)
          ⟨⟨[], by simp, rfl, rfl⟩, ⟨[.key k], ?_⟩, ?_, rfl⟩
        · show noResize s.input = _; rw [hi]; rfl
        · show resizesIn rest = resizesIn s.input; rw [hi]; rfl
      refine Wp.seq (call_talk (hb k) _) fun p h1 => ?_
      obtain ⟨s1, rc⟩ := p
      have h2 : Talk true true s (s1.emit .cursorOn) := by
        rcases h1 with h1 | h1
        · exact (h0.trans h1).emit_on
        · exact (h0.trans h1).emit_on
      have fin : Wp Halts (do
          let p ← finish E (s1.emit .cursorOn) rc
          return (p.1, some p.2)) (fun p => Says true true s p.1) :=
        Wp.seq (finish_talk h2 rc) fun p h3 => h3.says
      cases rc with
      | cont => exact h2.says
      | enter => exact fin
      | intr => exact fin
      | abort => exact fin

/-- The state before anything is written or read. -/
def bareSt (E : Env) (w : World) : St :=
  { cursor := w.cursor, clip := w.clip, termWidth := w.termWidth, input := w.input,
    out := w.out, promptN := w.promptN, histPtr := E.histLen }

theorem promptSt_q (w : World) : Quiet (bareSt E w) (promptSt E w) := by
  have h0 : Quiet (bareSt E w) (callPromptWriter E (bareSt E w)).2 := by
    unfold callPromptWriter
    split
    · exact (Quiet.refl _).emit
    · exact Quiet.emit (s1 := { bareSt E w with promptN := w.promptN + 1 }) ((Quiet.refl _).of)
  have e : promptSt E w = (match E.promptErr with
      | some e => { (callPromptWriter E (bareSt E w)).2.emit (.lit (e ++ [0x0A, 0x24, 0x20])) with
                      topColumn := 2 }
      | none =>
        if (callPromptWriter E (bareSt E w)).1 ≥ (callPromptWriter E (bareSt E w)).2.termWidth - 3 then
          { (callPromptWriter E (bareSt E w)).2.emit (.lit [0x0A]) with topColumn := 0 }
        else { (callPromptWriter E (bareSt E w)).2 with
                 topColumn := (callPromptWriter E (bareSt E w)).1 }) := rfl
  rw [e]
  generalize callPromptWriter E (bareSt E w) = q at *
  split
  · exact (h0.emit (t := .lit _)).of
  · split
    · exact (h0.emit (t := .lit _)).of
    · exact h0.of

/-- What is written before the first key is awaited; nothing is read. -/
theorem startSt_talk (v : Bool) (w : World) :
    Wp Halts (startSt E w) (fun s => Talk v true (bareSt E w) s) := by
  unfold startSt
  refine Wp.seq (insertString_q (promptSt_q w) _ _) fun p h1 => ?_
  dsimp only
  refine Wp.seq (P := Quiet (bareSt E w)) ?_ fun s h2 => ?_
  · unfold repaintAfterPrompt
    refine repaint_q (Quiet.of ?_)
    split
    · exact h1.of
    · exact h1.of
  · exact (Talk.of_quiet (v := v) h2).emit_on

theorem reachable_says {w : World} {s : St} (hb : ∀ k, (lookupCommand E k).builtin = true)
    (v : Bool) (h : Reachable E w s) : Says v true (bareSt E w) s := by
  induction h with
  | start h => exact ((startSt_talk v w).ok h).says
  | step _ h ih => exact ih.trans ((step_says hb _).ok h)

/-- The width of the terminal is the first one or that of a resize. -/
theorem reachable_width {w : World} {s : St} (hb : ∀ k, (lookupCommand E k).builtin = true)
    (h : Reachable E w s) : s.termWidth = w.termWidth ∨ .resize s.termWidth ∈ w.input :=
  (reachable_says hb true h).width

end Readline
