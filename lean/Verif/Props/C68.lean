import Verif.Model.Broken
import Verif.Props.C01
import Verif.Props.C38
import Verif.Props.C55
/-!
# C68: output that fails neither stops nor changes the editing

`C68_begins`: what a terminal that stops taking bytes has got is the beginning of what it would have got.
`C68_first`: if it takes `n` more bytes, exactly the first `n`.
`C68_mute`: after a failure no byte arrives any more, in this and in all later calls of `ReadLine`, even if
the terminal would take bytes again.
`C68_exact`: with a prompt of two columns (as the default one) and more than five columns, `ReadLine` does the same and
returns the same on every output, working or not; `C68_lines`: so do any number of calls.
`C68_same_partial`: with any prompt, as far as the result does not depend on the width of the prompt (C38).
`C68_texts_partial`: with default keys and ordinary texts it returns, on every output.
`C68_refuted_narrow`: on five columns failing output makes Ctrl-E panic.
`C68_refuted_told`: nothing tells the caller about the failure.
-/
namespace Readline
open Spec Example

variable {E : Env} {msg msg' : Bytes} {W W' V V' : Writer} {w : World} {s s' : St} {r r' : RLRes}

/-! ## A failed output -/

theorem flush_failed (h : W.failed = true) : W.flush = W := by unfold Writer.flush; rw [if_pos h]

theorem write_failed (h : W.failed = true) (p : Bytes) : W.write p = W := by
  unfold Writer.write
  rw [Writer.writeLoop, if_pos h]

theorem tok_failed {C : Cfg} (h : W.failed = true) (t : Tok) : W.tok C t = W := by
  cases t <;> first | exact flush_failed h | exact write_failed h _

theorem run_failed {C : Cfg} (h : W.failed = true) (ts : List Tok) : W.run C ts = W := by
  induction ts with
  | nil => rfl
  | cons t ts ih =>
    show (W.tok C t).run C ts = W
    rw [tok_failed h, ih]

theorem readLineOn_ok : readLineOn E msg W w = .ok (V, s, r) ↔
    readLine (E.on msg W w.promptN) { w with out := [] } = .ok (s, r) ∧ V = W.run E.cfg s.out := by
  unfold readLineOn
  constructor
  · intro h
    obtain ⟨⟨a, c⟩, h1, h⟩ := bind_ok.mp h
    cases pure_ok.mp h
    exact ⟨h1, rfl⟩
  · rintro ⟨h1, rfl⟩
    rw [h1]; rfl

/-- After a failure nothing arrives any more, however often `ReadLine` is called and whatever the terminal
would take. -/
theorem C68_mute {n : Nat} {rs : List RLRes} (hf : W.failed = true) (h : linesOn E msg n W w = .ok (V, rs)) :
    V.sent = W.sent := by
  have key : V = W := by
    induction n generalizing w V rs with
    | zero => cases pure_ok.mp h; rfl
    | succ n ih =>
      rw [linesOn] at h
      obtain ⟨⟨U, s, r⟩, h1, h⟩ := bind_ok.mp h
      obtain ⟨⟨U', rs'⟩, h2, h⟩ := bind_ok.mp h
      cases pure_ok.mp h
      obtain ⟨-, rfl⟩ := readLineOn_ok.mp h1
      rw [run_failed hf] at h2
      exact ih h2
  rw [key]

/-! ## What arrives is the beginning of what would arrive -/

theorem callPrompt_out (E : Env) (s : St) :
    (callPromptWriter E s).2.out = s.out ++ [.lit (promptBytes E s.promptN)] := by
  unfold callPromptWriter promptBytes
  cases E.prompt <;> rfl

/-- The prompt is the first thing that is written. -/
theorem prompt_first (hb : BuiltinKeys E) (h : readLine E { w with out := [] } = .ok (s, r)) :
    ∃ t, s.out = .lit (promptBytes E w.promptN) :: t := by
  obtain ⟨u, hu, hst⟩ := readLine_reachable h
  have hbb := fun k => BuiltinKeys.builtin hb k
  have start : ∀ {q : St}, startSt E { w with out := [] } = .ok q → ∃ t, q.out = .lit (promptBytes E w.promptN) :: t := by
    intro q hq
    unfold startSt at hq
    obtain ⟨⟨s1, n⟩, h1, hq⟩ := bind_ok.mp hq
    obtain ⟨s2, h2, hq⟩ := bind_ok.mp hq
    cases pure_ok.mp hq
    have q1 := (insertString_q (Quiet.refl (promptSt E { w with out := [] })) _ _).ok h1
    have q2 : Quiet (promptSt E { w with out := [] }) s2 := by
      unfold repaintAfterPrompt at h2
      refine (repaint_q (Quiet.of ?_)).ok h2
      split
      · exact q1.of
      · exact q1.of
    obtain ⟨t, e, -⟩ := q2.out
    have hp : ∃ t, (promptSt E { w with out := [] }).out = .lit (promptBytes E w.promptN) :: t := by
      unfold promptSt
      dsimp only
      have hc := callPrompt_out E { cursor := w.cursor, clip := w.clip, termWidth := w.termWidth, input := w.input, out := [], promptN := w.promptN, histPtr := E.histLen }
      cases E.promptErr with
      | some x => exact ⟨_, by show _ ++ [_] = _; rw [hc]; rfl⟩
      | none =>
        dsimp only
        split
        · exact ⟨_, by show _ ++ [_] = _; rw [hc]; rfl⟩
        · exact ⟨_, hc⟩
    obtain ⟨t', e'⟩ := hp
    exact ⟨t' ++ t ++ [.cursorOn], by show s2.out ++ _ = _; rw [e, e']; simp⟩
  have more : ∀ {q : St}, Reachable E { w with out := [] } q → ∃ t, q.out = .lit (promptBytes E w.promptN) :: t := by
    intro q hq
    induction hq with
    | start h => exact start h
    | step _ hs ih =>
      obtain ⟨t, e⟩ := ih
      obtain ⟨t', e', -⟩ := ((step_says hbb _).ok hs).out
      exact ⟨t ++ t', by rw [e', e]; rfl⟩
  obtain ⟨t, e⟩ := more hu
  obtain ⟨t', e', -⟩ := ((step_says hbb _).ok hst).out
  exact ⟨t ++ t', by rw [e', e]; rfl⟩

theorem on_builtin (hb : BuiltinKeys E) (n : Nat) : BuiltinKeys (E.on msg W n) := hb

/-- The working terminal gets everything. -/
theorem sent_all (hW : W.Fine) (hf : W.failed = false)
    (h2 : readLine (E.on msg { W with room := none } w.promptN) { w with out := [] } = .ok (s', r')) :
    (Writer.run E.cfg { W with room := none } s'.out).sent = W.sent ++ W.buf ++ bytesOf E.cfg s'.out := by
  have hW' : Writer.Fine { W with room := none } := ⟨hW.1, hW.2⟩
  obtain ⟨u, -, hst⟩ := readLine_reachable h2
  obtain ⟨t, e⟩ := step_last hst
  have e : s'.out = (t ++ [.cursorOn]) ++ [.flush] := by rw [e]; simp
  obtain ⟨a1, a2, a3, a4, a5⟩ := run_room (C := E.cfg) (w := { W with room := none }) (t ++ [.cursorOn]) rfl hf hW'
  rw [e, run_concat]
  show (Writer.flush _).sent = _
  rw [Writer.flush_room a1 a2]
  show _ ++ _ = _
  rw [a5]
  show W.sent ++ W.buf ++ _ = _
  unfold bytesOf
  rw [List.flatMap_append (xs := t ++ [Tok.cursorOn])]
  simp [Tok.bytes]

theorem honest_run {w : Writer} {a : Bytes} (ts : List Tok) (h : Honest w a) : Honest (w.run C ts) (a ++ bytesOf C ts) := by
  induction ts generalizing w a with
  | nil => simpa [Writer.run, bytesOf] using h
  | cons t ts ih =>
    have := ih (honest_tok (C := C) t h)
    rw [List.append_assoc] at this
    exact this

/-- What a terminal that may fail has got is the beginning of what it would have got if it did not fail. -/
theorem C68_begins (hb : BuiltinKeys E) (hW : W.Fine) (hf : W.failed = false)
    (h : readLineOn E msg W w = .ok (V, s, r)) (h' : readLineOn E msg { W with room := none } w = .ok (V', s', r')) :
    V.sent <+: V'.sent := by
  obtain ⟨h1, rfl⟩ := readLineOn_ok.mp h
  obtain ⟨h2, rfl⟩ := readLineOn_ok.mp h'
  have hW' : Writer.Fine { W with room := none } := ⟨hW.1, hW.2⟩
  rw [sent_all hW hf h2]
  have h0 : Honest W (W.sent ++ W.buf) := ⟨List.prefix_append _ _, fun _ => rfl⟩
  have n1 : (Writer.write { W with room := none } (promptBytes E w.promptN)).failed = false :=
    (Writer.write_room (w := { W with room := none }) rfl hf hW').2.1
  cases hp : (W.write (promptBytes E w.promptN)).failed with
  | false =>
    -- both did the same
    have e1 : E.on msg W w.promptN = E.on msg { W with room := none } w.promptN := by
      unfold Env.on; rw [hp, n1]
    rw [e1, h2] at h1
    cases h1
    exact (honest_run _ h0).sent
  | true =>
    obtain ⟨t, e⟩ := prompt_first (on_builtin hb _) h1
    obtain ⟨t', e'⟩ := prompt_first (on_builtin hb _) h2
    have e : s.out = .lit (promptBytes E w.promptN) :: t := e
    have e' : s'.out = .lit (promptBytes E w.promptN) :: t' := e'
    rw [e]
    show ((W.write (promptBytes E w.promptN)).run E.cfg t).sent <+: _
    rw [run_failed hp, e']
    have := (honest_write (promptBytes E w.promptN) h0).sent
    refine this.trans ⟨bytesOf E.cfg t', ?_⟩
    simp [bytesOf, Tok.bytes]

/-- The terminal takes `n` bytes in all. -/
structure Counted (n : Nat) (w : Writer) : Prop where
  left : ∃ r, w.room = some r ∧ w.sent.length + r = n
  full : w.failed = true → w.sent.length = n

theorem Counted.send {n : Nat} (h : Counted n W) (p : Bytes) : Counted n (W.send p) := by
  obtain ⟨⟨r, h1, h2⟩, -⟩ := h
  have ht : W.takes p = min r p.length := by unfold Writer.takes; rw [h1]
  unfold Writer.send
  rw [ht, h1]
  refine ⟨⟨r - min r p.length, rfl, ?_⟩, fun hx => ?_⟩
  · simp only [List.length_append, List.length_take]; omega
  · have hx : min r p.length < p.length := of_decide_eq_true hx
    simp only [List.length_append, List.length_take]; omega

theorem Counted.flush {n : Nat} (h : Counted n W) : Counted n W.flush := by
  unfold Writer.flush
  split
  · exact h
  · split
    · exact h
    · obtain ⟨h1, h2⟩ := h.send W.buf
      exact ⟨h1, h2⟩

theorem Counted.loop {n : Nat} (fuel : Nat) (h : Counted n W) (p : Bytes) : Counted n (W.writeLoop fuel p) := by
  induction fuel generalizing W p with
  | zero => exact h
  | succ fuel ih =>
    rw [Writer.writeLoop]
    split
    · exact h
    · split
      · exact ⟨h.left, h.full⟩
      · split
        · exact h.send p
        · exact ih (W := Writer.flush { W with buf := W.buf ++ p.take (W.size - W.buf.length) }) (Counted.flush ⟨h.left, h.full⟩) _

theorem Counted.run {n : Nat} {C : Cfg} (ts : List Tok) (h : Counted n W) : Counted n (W.run C ts) := by
  induction ts generalizing W with
  | nil => exact h
  | cons t ts ih =>
    refine ih (W := W.tok C t) ?_
    cases t <;> first | exact h.flush | exact h.loop _ _

/-- A terminal that takes `n` more bytes before it fails gets exactly the first `n` bytes of what it would have got. -/
theorem C68_first {n : Nat} (hb : BuiltinKeys E) (hW : W.Fine) (hf : W.failed = false) (hn : W.room = some n)
    (h : readLineOn E msg W w = .ok (V, s, r)) (h' : readLineOn E msg { W with room := none } w = .ok (V', s', r')) :
    V.sent = V'.sent.take (W.sent.length + n) := by
  obtain ⟨q, hq⟩ := C68_begins hb hW hf h h'
  obtain ⟨h1, rfl⟩ := readLineOn_ok.mp h
  obtain ⟨h2, rfl⟩ := readLineOn_ok.mp h'
  obtain ⟨⟨k, c1, c2⟩, c3⟩ : Counted (W.sent.length + n) (W.run E.cfg s.out) :=
    Counted.run _ ⟨⟨n, hn, rfl⟩, fun h => by rw [hf] at h; cases h⟩
  rw [← hq]
  cases hx : (W.run E.cfg s.out).failed with
  | true => rw [← c3 hx, List.take_left]
  | false =>
    have hp : (W.write (promptBytes E w.promptN)).failed = false := by
      obtain ⟨t, e⟩ := prompt_first (on_builtin hb _) h1
      have e : s.out = .lit (promptBytes E w.promptN) :: t := e
      cases hp : (W.write (promptBytes E w.promptN)).failed with
      | false => rfl
      | true =>
        rw [e] at hx
        have hx : ((W.write (promptBytes E w.promptN)).run E.cfg t).failed = false := hx
        rw [run_failed hp, hp] at hx
        cases hx
    have n1 : (Writer.write { W with room := none } (promptBytes E w.promptN)).failed = false :=
      (Writer.write_room (w := { W with room := none }) rfl hf ⟨hW.1, hW.2⟩).2.1
    have e1 : E.on msg W w.promptN = E.on msg { W with room := none } w.promptN := by
      unfold Env.on; rw [hp, n1]
    have h3 := h1
    rw [e1, h2] at h3
    injection h3 with h3
    obtain ⟨hs, -⟩ := Prod.ext_iff.mp h3
    have hs : s' = s := hs
    subst hs
    have h4 := (honest_run (C := E.cfg) s'.out (w := W) (a := W.sent ++ W.buf) ⟨List.prefix_append _ _, fun _ => rfl⟩).whole hx
    rw [← sent_all hW hf h2, ← hq] at h4
    have h5 : (W.run E.cfg s'.out).buf = [] := by
      obtain ⟨u, -, hst⟩ := readLine_reachable h2
      obtain ⟨t, e⟩ := step_last hst
      have e : s'.out = (t ++ [.cursorOn]) ++ [.flush] := by rw [e]; simp
      rw [e, run_concat] at hx ⊢
      exact flush_empty hx
    rw [h5] at h4
    have h6 := List.append_cancel_left h4
    rw [← h6, List.append_nil, List.take_of_length_le (by omega)]

/-! ## Nothing but the start looks at the error -/

theorem update_err (x : Option Bytes) (it : ISt) (n : Nat) :
    isearchUpdate { E with promptErr := x } it n = isearchUpdate E it n := by
  induction n with
  | zero => rfl
  | succ n ih => unfold isearchUpdate; rw [ih]; rfl

theorem prev_err (x : Option Bytes) (s : St) (it : ISt) (n : Nat) (i : Int) :
    isearchPrev { E with promptErr := x } s it n i = isearchPrev E s it n i := by
  induction n generalizing i with
  | zero => rfl
  | succ n ih => unfold isearchPrev; simp only [ih]; rfl

theorem next_err (x : Option Bytes) (s : St) (it : ISt) (n : Nat) (i : Int) :
    isearchNext { E with promptErr := x } s it n i = isearchNext E s it n i := by
  induction n generalizing i with
  | zero => rfl
  | succ n ih => unfold isearchNext; simp only [ih]; rfl

theorem replace_err (x : Option Bytes) (s : St) (n : Int) (t : Bytes) :
    replaceAndRepaint { E with promptErr := x } s n t = replaceAndRepaint E s n t := rfl

theorem view_err (x : Option Bytes) (s : St) : getView2 { E with promptErr := x } s = getView2 E s := rfl

theorem puts_err (x : Option Bytes) (s : St) (a c : Int) : puts { E with promptErr := x } s a c = puts E s a c := rfl

theorem isearchLoop_err (x : Option Bytes) (n : Nat) (it : ISt) (s : St) :
    isearchLoop { E with promptErr := x } n it s = isearchLoop E n it s := by
  induction n generalizing it s with
  | zero => rfl
  | succ n ih =>
    unfold isearchLoop
    simp only [ih, update_err, prev_err, next_err, replace_err, view_err, puts_err]

theorem call_err (x : Option Bytes) (c : Cmd) (s : St) :
    Cmd.call { E with promptErr := x } c s = Cmd.call E c s := by
  cases c
  case isearchBackward => exact isearchLoop_err ..
  all_goals (simp only [Cmd.call])
  all_goals rfl

theorem step_err (x : Option Bytes) (s : St) : step { E with promptErr := x } s = step E s := by
  unfold step
  cases s.input with
  | nil => rfl
  | cons ev rest =>
    cases ev with
    | err e => rfl
    | resize n => rfl
    | key k =>
      show execCmd _ (lookupCommand E k) _ = execCmd E (lookupCommand E k) _
      unfold execCmd
      simp only [call_err]
      rfl

theorem loop_err (x : Option Bytes) (n : Nat) (s : St) : loop { E with promptErr := x } n s = loop E n s := by
  induction n generalizing s with
  | zero => rfl
  | succ n ih =>
    unfold loop
    rw [step_err]
    simp only [ih]

theorem step_out (hb : BuiltinKeys E) : OutBlind (step E) := by
  intro s p
  obtain ⟨i, hi⟩ : ∃ i, s.input = i := ⟨_, rfl⟩
  have hi' : (s.wrote p).input = i := hi
  unfold step
  rw [hi, hi']
  cases i with
  | nil => simp only [wrote_emit, deferred]; rfl
  | cons ev rest =>
    have e1 : ∀ t : St, ({ t.wrote p with input := rest } : St) = ({ t with input := rest } : St).wrote p := fun _ => rfl
    cases ev with
    | err e => simp only [wrote_emit, deferred, e1]; rfl
    | resize n =>
      dsimp only
      rw [e1]
      have h := outBlind_io (f := fun s => (onResize E s n).map fun t => (t, (none : Option RLRes))) (fun s i p => by
        show (onResize E (s.io i p) n).map _ = _
        rw [onResize_io]
        cases onResize E s n <;> rfl) { s with input := rest } p
      dsimp only at h
      exact h
    | key k =>
      dsimp only
      rw [wrote_emit, e1]
      exact execCmd_out hb k _ p

theorem loop_out (hb : BuiltinKeys E) (n : Nat) : OutBlind (loop E n) := by
  induction n with
  | zero => intro s p; rfl
  | succ n ih =>
    intro s p
    unfold loop
    rw [step_out hb s p]
    refine wroteAll_bind fun a => ?_
    obtain ⟨t, o⟩ := a
    cases o with
    | none => exact ih t p
    | some r => rfl

/-- The state behind a prompt of two columns, without the output. -/
def calledSt (E : Env) (w : World) : St :=
  { cursor := w.cursor, clip := w.clip, termWidth := w.termWidth, input := w.input, out := [], promptN := (match E.prompt with | none => w.promptN | some _ => w.promptN + 1), histPtr := E.histLen, topColumn := 2 }

/-- Apart from the output, the start is the same with every output if the prompt takes two columns. -/
theorem prompt_same (h2 : promptWidth E w.promptN = 2) (hw : 5 < w.termWidth) (x : Option Bytes) :
    ∃ p, promptSt { E with promptErr := x } w = (calledSt E w).wrote p := by
  refine ⟨w.out ++ .lit (promptBytes E w.promptN) :: (match x with
    | none => []
    | some e => [.lit (e ++ [0x0A, 0x24, 0x20])]), ?_⟩
  unfold promptWidth at h2
  unfold promptSt promptBytes callPromptWriter calledSt
  cases hp : E.prompt with
  | none =>
    cases x with
    | some e => simp [St.wrote, St.io, St.emit, Env.histLen]
    | none =>
      dsimp only
      rw [if_neg (by show ¬ (2 : Int) ≥ w.termWidth - 3; omega)]
      simp [St.wrote, St.io, St.emit, Env.histLen]
  | some f =>
    rw [hp] at h2
    dsimp only at h2
    cases x with
    | some e => simp [St.wrote, St.io, St.emit, Env.histLen]
    | none =>
      dsimp only
      rw [h2, if_neg (by show ¬ (2 : Int) ≥ w.termWidth - 3; omega)]
      simp [St.wrote, St.io, St.emit, Env.histLen]

/-- What `ReadLine` does after the prompt. -/
def behindPrompt (E : Env) (s : St) : M (St × RLRes) := do
  let (s, _) ← insertString E s 0 E.default
  let s := if s.cursor > s.len then { s with cursor := s.len } else s
  let s ← repaintAfterPrompt E s
  loop E ((s.emit .cursorOn).input.length + 1) (s.emit .cursorOn)

theorem readLine_behind (E : Env) (w : World) : readLine E w = behindPrompt E (promptSt E w) := by
  unfold readLine startSt behindPrompt
  simp only [bind_assoc, pure_bind]

theorem behindPrompt_err (x : Option Bytes) (s : St) : behindPrompt { E with promptErr := x } s = behindPrompt E s := by
  unfold behindPrompt
  simp only [loop_err]
  rfl

theorem behindPrompt_out (hb : BuiltinKeys E) : OutBlind (behindPrompt E) := by
  intro s p
  unfold behindPrompt
  have h1 : insertString E (s.wrote p) 0 E.default = wroteAll p (insertString E s 0 E.default) :=
    outBlind_io (f := fun s => insertString E s 0 E.default) (fun s i p => insertString_io s _ _) s p
  rw [h1]
  refine wroteAll_bind fun a => ?_
  obtain ⟨t, n⟩ := a
  dsimp only
  have h2 : (if (t.wrote p).cursor > (t.wrote p).len then { t.wrote p with cursor := (t.wrote p).len } else t.wrote p) =
      (if t.cursor > t.len then { t with cursor := t.len } else t).wrote p := by
    by_cases hc : t.cursor > t.len
    · rw [if_pos hc, if_pos (show (t.wrote p).cursor > (t.wrote p).len from hc)]; rfl
    · rw [if_neg hc, if_neg (show ¬ (t.wrote p).cursor > (t.wrote p).len from hc)]
  rw [h2]
  generalize (if t.cursor > t.len then { t with cursor := t.len } else t) = u
  have h := outBlind_io (f := fun s => (repaintAfterPrompt E s).map fun t => (t, ())) (fun s i p => by
    show (repaintAfterPrompt E (s.io i p)).map _ = _
    rw [repaintAfterPrompt_io]
    cases repaintAfterPrompt E s <;> rfl) u p
  dsimp only at h
  cases hr : repaintAfterPrompt E u with
  | error e =>
    rw [hr] at h
    cases hr' : repaintAfterPrompt E (u.wrote p) with
    | ok v => rw [hr'] at h; cases h
    | error e' =>
      rw [hr'] at h
      cases h
      rfl
  | ok v =>
    rw [hr] at h
    cases hr' : repaintAfterPrompt E (u.wrote p) with
    | error e' => rw [hr'] at h; cases h
    | ok v' =>
      rw [hr'] at h
      have h : Except.ok (v', ()) = (Except.ok (v.wrote p, ()) : M (St × Unit)) := h
      injection h with h
      injection h with h
      subst h
      show loop E _ ((v.wrote p).emit .cursorOn) = wroteAll p (loop E _ (v.emit .cursorOn))
      rw [wrote_emit]
      exact loop_out hb _ _ _

/-- With a prompt of two columns and more than five columns, `ReadLine` is the same with every output: it panics or
not, returns the same and leaves the same state, but for what it tried to write. -/
theorem C68_exact (hb : BuiltinKeys E) (h2 : promptWidth E w.promptN = 2) (hw : 5 < w.termWidth)
    (h : readLineOn E msg W w = .ok (V, s, r)) :
    ∃ V' s', readLineOn E msg' W' w = .ok (V', s', r) ∧ s' = { s with out := s'.out } := by
  obtain ⟨h1, -⟩ := readLineOn_ok.mp h
  have same : ∀ x, ∃ p, readLine { E with promptErr := x } { w with out := [] } =
      wroteAll p (behindPrompt E (calledSt E { w with out := [] })) := by
    intro x
    obtain ⟨p, hp⟩ := prompt_same (w := { w with out := [] }) h2 hw x
    exact ⟨p, by rw [readLine_behind, hp, behindPrompt_err, behindPrompt_out hb]⟩
  obtain ⟨p, e⟩ := same (if (W.write (promptBytes E w.promptN)).failed then some msg else none)
  obtain ⟨p', e'⟩ := same (if (W'.write (promptBytes E w.promptN)).failed then some msg' else none)
  have h1 := e.symm.trans h1
  cases hx : behindPrompt E (calledSt E { w with out := [] }) with
  | error q => rw [hx] at h1; cases h1
  | ok a =>
    rw [hx] at h1 e'
    injection h1 with h1
    injection h1 with h1 h3
    refine ⟨_, a.1.wrote p', readLineOn_ok.mpr ⟨?_, rfl⟩, ?_⟩
    · rw [← h3]; exact e'
    · rw [← h1]; rfl

/-- The same for any number of calls. -/
theorem C68_lines {n : Nat} {rs : List RLRes} (hb : BuiltinKeys E) (h2 : ∀ n, promptWidth E n = 2) (hw : 5 < w.termWidth)
    (hr : ∀ n, .resize n ∈ w.input → 5 < n) (h : linesOn E msg n W w = .ok (V, rs)) :
    ∃ V', linesOn E msg' n W' w = .ok (V', rs) := by
  have gen : ∀ (n : Nat) {rs : List RLRes} {W W' V : Writer} {w w' : World}, w' = { w with out := w'.out } → 5 < w.termWidth →
      (∀ n, .resize n ∈ w.input → 5 < n) → linesOn E msg n W w = .ok (V, rs) →
      ∃ V', linesOn E msg' n W' w' = .ok (V', rs) := by
    intro n
    induction n with
    | zero => intro rs W W' V w w' _ _ _ h; cases pure_ok.mp h; exact ⟨_, rfl⟩
    | succ n ih =>
      intro rs W W' V w w' hww hw hr h
      rw [linesOn] at h
      obtain ⟨⟨U, s, r⟩, h1, h⟩ := bind_ok.mp h
      obtain ⟨⟨U', rs'⟩, h3, h⟩ := bind_ok.mp h
      cases pure_ok.mp h
      obtain ⟨V1, s1, g1, g2⟩ := C68_exact (msg' := msg') (W' := W') hb (h2 _) hw h1
      obtain ⟨g0, -⟩ := readLineOn_ok.mp h1
      obtain ⟨u, hu, hst⟩ := readLine_reachable g0
      have hbb := fun k => BuiltinKeys.builtin (on_builtin (msg := msg) (W := W) hb w.promptN) k
      have hsay := (reachable_says hbb true hu).trans ((step_says hbb u).ok hst)
      have hwid : 5 < s.termWidth := by
        rcases hsay.width with e | e
        · rw [e]; exact hw
        · exact hr _ e
      have hin : ∀ m, .resize m ∈ s.input → .resize m ∈ w.input := hsay.resizes
      obtain ⟨V2, g3⟩ := ih (W' := V1) (w' := s1.world) (by rw [g2]; rfl) hwid (fun m hm => hr m (hin m hm)) h3
      refine ⟨V2, ?_⟩
      rw [linesOn]
      have g1' : readLineOn E msg' W' w' = .ok (V1, s1, r) := by rw [hww]; exact g1
      rw [g1']
      show (linesOn E msg' n V1 s1.world >>= fun p => pure (p.1, r :: p.2)) = _
      rw [g3]
      rfl
  exact gen n rfl hw hr h

/-- With any prompt: the result does not depend on the output, if predictions are off or no key leaves an old prediction behind,
and neither call panics. -/
theorem C68_same_partial (hb : BuiltinKeys E)
    (hs : E.logic.predictOn = false ∨ ∀ k, Ev.key k ∈ w.input → stales (lookupCommand E k) = false)
    (h : readLineOn E msg W w = .ok (V, s, r)) (h' : readLineOn E msg' W' w = .ok (V', s', r')) :
    r = r' ∧ s.units = s'.units ∧ s.cursor = s'.cursor ∧ s.undoes = s'.undoes :=
  C38_partial (E₁ := E.on msg W w.promptN) (E₂ := E.on msg' W' w.promptN) (w₁ := { w with out := [] }) (w₂ := { w with out := [] })
    rfl hb rfl rfl rfl hs
    (readLineOn_ok.mp h).1 (readLineOn_ok.mp h').1

/-- With the default keys and the default prompt, ordinary texts and a terminal of at least eight columns, `ReadLine` returns
with every output, and what it returns with a working one. -/
theorem C68_texts_partial (hk : E.keyMap = none) (hg : E.globalKeyMap = defaultGlobalKeyMap)
    (hq : E.predictor = none) (hc : E.clipSet = fun _ t => some t) (hp : E.prompt = none)
    (ht : ∀ t, t = E.default ∨ t ∈ E.history ∨ w.clip = some t ∨ FromKey E w t → Over (Plain E.cfg) t)
    (h22 : Plain E.cfg 0x22) (hs : .key [0x14] ∉ w.input) (hw : 7 < w.termWidth) (hr : ∀ n, .resize n ∈ w.input → 7 < n)
    (hcur : 0 ≤ w.cursor) : ∃ r, ∀ msg W, ∃ V s, readLineOn E msg W w = .ok (V, s, r) := by
  have hb : BuiltinKeys E := by
    intro k f h
    refine defaultKeys_builtin E.cfg k f ?_
    rw [← h]
    unfold lookupCommand
    rw [hk, hg]
    rfl
  obtain ⟨s, r, h⟩ := C01_texts_partial (E := E.on [] { size := 1 } w.promptN) (w := { w with out := [] }) hk hg hq hc hp ht h22 hs hw hr hcur
  have h : readLineOn E [] { size := 1 } w = .ok (_, s, r) := readLineOn_ok.mpr ⟨h, rfl⟩
  refine ⟨r, fun msg W => ?_⟩
  obtain ⟨V, s', e, -⟩ := C68_exact (msg' := msg) (W' := W) hb (by unfold promptWidth; rw [hp]) (by omega) h
  exact ⟨V, s', e⟩

namespace Example

/-- A terminal that takes 2 bytes and then fails. -/
def dying : Writer := { size := 16, room := some 2 }

def heard (x : M (Writer × List RLRes)) : Option (Bytes × Bool × List RLRes) :=
  match x with
  | .ok (W, rs) => some (W.sent, W.failed, rs)
  | .error _ => none

/-- Not vacuous: two lines are read though only the line feed and the `>` of the first prompt arrive. -/
example : heard (linesOn (env plain) (b "EIO") 2 dying { input := keys ["h", "i", "\r", "y", "o", "\r"] }) =
    some (b "\n>", true, [⟨b "hi", .nil⟩, ⟨b "yo", .nil⟩]) := by decide +kernel

/-- With a terminal that works the same lines are read. -/
example : (heard (linesOn (env plain) (b "EIO") 2 { size := 16 } { input := keys ["h", "i", "\r", "y", "o", "\r"] })).map
    (fun x => (x.1.take 4, x.2)) = some (b "\n> \x1B", false, [⟨b "hi", .nil⟩, ⟨b "yo", .nil⟩]) := by decide +kernel

/-- The terminal takes bytes again, but the output has given up: nothing arrives. -/
example : heard (linesOn (env plain) (b "EIO") 1 { dying with room := none, failed := true } { input := keys ["h", "\r"] }) =
    some ([], true, [⟨b "h", .nil⟩]) := by decide +kernel

end Example

/-- **Refuted** (that nobody notices): on five columns the text written for a prompt that could not be written leaves no
room for the line, and the editor panics; with a working output it does not. -/
theorem C68_refuted_narrow : ∃ (E : Env) (w : World) (W : Writer) (msg : Bytes), BuiltinKeys E ∧
    heard (linesOn E msg 1 { W with room := none } w) ≠ none ∧ heard (linesOn E msg 1 W w) = none :=
  ⟨env plain, { termWidth := 5, input := keys ["\x05", "\r"] }, { size := 2, room := some 0 }, b "EIO",
    defaultKeys_builtin _, by decide +kernel, by decide +kernel⟩

/-- **Refuted** (that the caller is told): with a terminal that takes nothing at all, `ReadLine` returns the line and no error,
like with one that works (`C68_texts_partial`: what is returned does not depend on the output). -/
theorem C68_refuted_told : ∃ (E : Env) (w : World) (W : Writer) (msg : Bytes), W.room = some 0 ∧
    heard (linesOn E msg 1 W w) = some ([], true, [⟨b "hi", .nil⟩]) :=
  ⟨env plain, { input := keys ["h", "i", "\r"] }, { size := 16, room := some 0 }, b "EIO", rfl, by decide +kernel⟩

end Readline
