import Verif.Proof.Ahead
import Verif.Props.C03
import Verif.Props.C26
/-!
# C51: what the screen shows when ReadLine returns

When editing ends, the row shows the line, without a prediction, then comes the line feed (or what
`LineFeedWriter` writes), and after it nothing but the sequence that shows the cursor.

`C51_linefeed`: in every session, whatever `LineFeedWriter` is, exactly one thing depends on it: the
last piece of output, and it is called with the reason for the end (not at all when the Tty failed).
`C51_partial`, `C51_eof_partial`: the row after Enter and after Ctrl-D, where C26 holds.
`C51_tabs_partial`: after Enter on lines with tabs that always fit.
`C51_interrupt_partial`: Ctrl-C leaves the line on the screen only if no prediction was computed;
otherwise it is erased (`C51_refuted`: with and without `PredictColor`).
-/
namespace Readline
open Spec

variable {E : Env} {w : World} {lit : Bytes → Row → Row}

/-- What is written when the editing has ended. -/
def Spec.farewell (f : Option (Result → Bytes)) : RLErr → List Tok
  | .tty _ => [.cursorOn, .flush]
  | .nil => [.lit (f.elim [0x0A] (· .enter)), .flush, .cursorOn, .flush]
  | .ctrlC => [.lit (f.elim [0x0A] (· .intr)), .flush, .cursorOn, .flush]
  | .eof => [.lit (f.elim [0x0A] (· .abort)), .flush, .cursorOn, .flush]

/-- The row shows the line and nothing else: from the column behind the prompt on, the units from
`ViewStart` to the cursor, some more units behind the cursor, and then nothing; all of that fits. -/
def Spec.Final (E : Env) (s : St) (row : Row) : Prop :=
  ∃ right, right <+: s.between s.cursor s.len ∧
    columns E.cfg (s.between s.viewStart s.cursor ++ right) < s.viewWidth ∧
    ∀ x, s.topColumn ≤ x →
      row.cells x = layout E.cfg (s.between s.viewStart s.cursor ++ right) s.topColumn x

/-! ## The line feed -/

/-- The same settings with another `LineFeedWriter`. -/
def Env.feed (E : Env) (f : Option (Result → Bytes)) : Env := { E with lineFeed := f }

variable {f : Option (Result → Bytes)}

theorem isearchUpdate_feed : isearchUpdate (E.feed f) = isearchUpdate E := by
  funext it n
  induction n with
  | zero => rfl
  | succ n ih => rw [isearchUpdate, isearchUpdate, ih]; rfl

theorem isearchPrev_feed : isearchPrev (E.feed f) = isearchPrev E := by
  funext s it n
  induction n with
  | zero => rfl
  | succ n ih => funext i; rw [isearchPrev, isearchPrev, ih]; rfl

theorem isearchNext_feed : isearchNext (E.feed f) = isearchNext E := by
  funext s it n
  induction n with
  | zero => rfl
  | succ n ih => funext i; rw [isearchNext, isearchNext, ih]; rfl

theorem isearchLoop_feed (n : Nat) : isearchLoop (E.feed f) n = isearchLoop E n := by
  induction n with
  | zero => rfl
  | succ n ih =>
    funext it s
    rw [isearchLoop_succ, isearchLoop_succ]
    have : isearchKey (E.feed f) n = isearchKey E n := by
      funext it key s
      unfold isearchKey
      rw [ih, isearchUpdate_feed, isearchPrev_feed, isearchNext_feed]
      have h1 : getView2 (E.feed f) = getView2 E := rfl
      have h2 : puts (E.feed f) = puts E := rfl
      have h3 : replaceAndRepaint (E.feed f) = replaceAndRepaint E := rfl
      have h4 : (E.feed f).history = E.history := rfl
      rw [h1, h2, h3, h4]
    rw [this]
    rfl

theorem call_feed {c : Cmd} (hb : c.builtin = true) (s : St) : Cmd.call (E.feed f) c s = Cmd.call E c s := by
  cases c with
  | custom f => cases hb
  | isearchBackward =>
    show cmdISearchBackward _ _ = cmdISearchBackward _ _
    unfold cmdISearchBackward
    rw [isearchLoop_feed]
    rfl
  | _ => rfl

theorem finish_feed {s s' : St} {rc : Result} {r : RLRes} (hrc : rc = .enter ∨ rc = .intr ∨ rc = .abort)
    (h : finish E s rc = .ok (s', r)) :
    ∃ s1 : St, (match s.suffix with
        | some _ => repaintNoSuffix E { s with suffix := none }
        | none => .ok s) = .ok s1 ∧
      ∀ g, finish (E.feed g) s rc = .ok ({ s1 with out := s1.out ++ farewell g r.err }, r) := by
  unfold finish at h
  obtain ⟨s1, h1, h⟩ := bind_ok.mp h
  injection h with h
  obtain ⟨-, rfl⟩ := Prod.ext_iff.mp h
  cases hs : s.suffix with
  | none =>
    rw [hs] at h1
    injection h1 with h1
    subst h1
    refine ⟨s, rfl, fun g => ?_⟩
    unfold finish
    rw [hs]
    rcases hrc with rfl | rfl | rfl <;> cases g <;> cases hl : E.lineFeed <;>
      simp [hs, Env.feed, farewell, deferred, St.emit, pure, Except.pure, St.text, bind, Except.bind]
  | some x =>
    rw [hs] at h1
    have h1 : repaintNoSuffix E { s with suffix := none } = .ok s1 := h1
    refine ⟨s1, h1, fun g => ?_⟩
    have h2 : repaintNoSuffix (E.feed g) { s with suffix := none } = .ok s1 := h1
    unfold finish
    rw [hs]
    dsimp only
    rw [h2]
    rcases hrc with rfl | rfl | rfl <;> cases g <;> cases hl : E.lineFeed <;>
      simp [Env.feed, farewell, deferred, St.emit, pure, Except.pure, St.text, bind, Except.bind]

/-- The command of a key that ends the editing. -/
theorem exec_feed {c : Cmd} (hb : c.builtin = true) {s s' : St} {r : RLRes}
    (h : execCmd E c s = .ok (s', some r)) :
    ∃ u rc s1, Cmd.call E c (s.emit .cursorOff) = .ok (u, rc) ∧ (rc = .enter ∨ rc = .intr ∨ rc = .abort) ∧
      (match u.suffix with
        | some _ => repaintNoSuffix E { u.emit .cursorOn with suffix := none }
        | none => .ok (u.emit .cursorOn)) = .ok s1 ∧
      ∀ g, execCmd (E.feed g) c s = .ok ({ s1 with out := s1.out ++ farewell g r.err }, some r) := by
  unfold execCmd at h
  dsimp only at h
  obtain ⟨⟨u, rc⟩, h1, h⟩ := bind_ok.mp h
  dsimp only at h
  have hrc : rc = .enter ∨ rc = .intr ∨ rc = .abort := by
    cases rc with
    | cont => cases h
    | enter => simp
    | abort => simp
    | intr => simp
  have h : (do let (s, r) ← finish E (u.emit .cursorOn) rc; return (s, some r)) = Except.ok (s', some r) := by
    rcases hrc with rfl | rfl | rfl <;> exact h
  obtain ⟨⟨s2, r2⟩, h2, h⟩ := bind_ok.mp h
  injection h with h
  obtain ⟨rfl, hr⟩ := Prod.ext_iff.mp h
  injection hr with hr
  change r2 = r at hr
  subst hr
  obtain ⟨s1, h3, h4⟩ := finish_feed hrc h2
  refine ⟨u, rc, s1, h1, hrc, h3, fun g => ?_⟩
  unfold execCmd
  dsimp only
  rw [call_feed hb, h1]
  rcases hrc with rfl | rfl | rfl
  all_goals
    show (do let (s, r) ← finish (E.feed g) (u.emit .cursorOn) _; return (s, some r)) = _
    rw [h4]
    rfl

theorem exec_feed_none {c : Cmd} (hb : c.builtin = true) {s s' : St}
    (h : execCmd E c s = .ok (s', none)) : execCmd (E.feed f) c s = .ok (s', none) := by
  unfold execCmd at h ⊢
  dsimp only at h ⊢
  rw [call_feed hb]
  obtain ⟨⟨u, rc⟩, h1, h⟩ := bind_ok.mp h
  rw [h1]
  cases rc with
  | cont => exact h
  | _ =>
    obtain ⟨q, -, h⟩ := bind_ok.mp h
    injection h with h
    cases (Prod.ext_iff.mp h).2

theorem step_feed (hb : BuiltinKeys E) {s s' : St} {r : RLRes} (h : step E s = .ok (s', some r)) :
    ∃ s1 : St, ∀ g, step (E.feed g) s = .ok ({ s1 with out := s1.out ++ farewell g r.err }, some r) := by
  cases hi : s.input with
  | nil =>
    rw [step, hi] at h
    injection h with h
    obtain ⟨-, hr⟩ := Prod.ext_iff.mp h
    injection hr with hr
    subst hr
    refine ⟨s.emit .await, fun g => ?_⟩
    rw [step, hi]
    simp [deferred, St.emit, farewell, pure, Except.pure]
  | cons ev rest =>
    cases ev with
    | err e =>
      rw [step, hi] at h
      injection h with h
      obtain ⟨-, hr⟩ := Prod.ext_iff.mp h
      injection hr with hr
      subst hr
      refine ⟨{ s.emit .await with input := rest }, fun g => ?_⟩
      rw [step, hi]
      simp [deferred, St.emit, farewell, pure, Except.pure]
    | resize n => have := (step_resize_ed hi h).1; cases this
    | key k =>
      rw [step_key hi] at h
      obtain ⟨u, rc, s1, -, -, -, h4⟩ := exec_feed (BuiltinKeys.builtin hb k) h
      refine ⟨s1, fun g => ?_⟩
      rw [step_key hi]
      exact h4 g

theorem step_feed_none (hb : BuiltinKeys E) {s s' : St} (h : step E s = .ok (s', none)) :
    step (E.feed f) s = .ok (s', none) := by
  cases hi : s.input with
  | nil => rw [step, hi] at h; cases h
  | cons ev rest =>
    cases ev with
    | err e => rw [step, hi] at h; cases h
    | resize n =>
      rw [step, hi] at h ⊢
      exact h
    | key k =>
      rw [step_key hi] at h ⊢
      exact exec_feed_none (BuiltinKeys.builtin hb k) h

theorem loop_feed (hb : BuiltinKeys E) {n : Nat} {s s' : St} {r : RLRes} (h : loop E n s = .ok (s', r)) :
    ∃ s1 : St, ∀ g, loop (E.feed g) n s = .ok ({ s1 with out := s1.out ++ farewell g r.err }, r) := by
  induction n generalizing s with
  | zero => cases h
  | succ n ih =>
    rw [loop] at h
    obtain ⟨⟨u, o⟩, h1, h⟩ := bind_ok.mp h
    cases o with
    | none =>
      obtain ⟨s1, h2⟩ := ih h
      refine ⟨s1, fun g => ?_⟩
      rw [loop, step_feed_none hb h1]
      exact h2 g
    | some r' =>
      injection h with h
      obtain ⟨rfl, rfl⟩ := Prod.ext_iff.mp h
      obtain ⟨s1, h2⟩ := step_feed hb h1
      refine ⟨s1, fun g => ?_⟩
      rw [loop, h2]
      rfl

/-- Nothing but the last piece of output depends on `LineFeedWriter`, which is told why the editing
ended. -/
theorem C51_linefeed (hb : BuiltinKeys E) {s : St} {r : RLRes} (h : readLine E w = .ok (s, r)) :
    ∃ t, s.out = t ++ farewell E.lineFeed r.err ∧
      ∀ f, ∃ s', readLine { E with lineFeed := f } w = .ok (s', r) ∧ s'.out = t ++ farewell f r.err ∧
        s'.text = s.text ∧ s'.clip = s.clip ∧ s'.input = s.input := by
  have h0 := h
  unfold readLine at h
  obtain ⟨u, h1, h⟩ := bind_ok.mp h
  obtain ⟨s1, h2⟩ := loop_feed hb h
  have hs : s = { s1 with out := s1.out ++ farewell E.lineFeed r.err } := by
    have := h2 E.lineFeed
    change loop E _ _ = _ at this
    rw [h] at this
    injection this with this
    exact (Prod.ext_iff.mp this).1
  refine ⟨s1.out, by rw [hs], fun f => ⟨{ s1 with out := s1.out ++ farewell f r.err }, ?_, rfl, ?_, ?_, ?_⟩⟩
  · unfold readLine
    have : startSt { E with lineFeed := f } w = .ok u := h1
    rw [this]
    exact h2 f
  · rw [hs]; rfl
  · rw [hs]
  · rw [hs]

/-! ## The row -/

theorem Spec.Shows.final {s : St} {row : Row} (h : Shows E s row) (hs : s.suffix = none) : Final E s row := by
  obtain ⟨right, pred, h1, h2, h3, h4, -⟩ := h.cells
  have hp : pred = [] := by
    rcases h4 with h4 | ⟨-, h4⟩
    · exact h4
    · have : s.suffixList = [] := by unfold St.suffixList; rw [hs]; rfl
      rw [this] at h4
      exact List.prefix_nil.mp h4
  subst hp
  rw [List.append_nil] at h2 h3
  exact ⟨right, h1, h2, h3⟩

/-- The state in which the editing ends, and what is written from then on. -/
theorem ending_at (hb : BuiltinKeys E) {s : St} {r : RLRes}
    (h : readLine E w = .ok (s, r)) (hr : ∀ e, r.err ≠ .tty e) :
    ∃ u k rest, Reachable E w u ∧ u.input = .key k :: rest ∧ Ends E u r ∧
      ∃ v rc, Cmd.call E (lookupCommand E k) ({ u.emit .await with input := rest }.emit .cursorOff) = .ok (v, rc) ∧
        ∃ s1 : St, (match v.suffix with
        | some _ => repaintNoSuffix E { v.emit .cursorOn with suffix := none }
        | none => .ok (v.emit .cursorOn)) = .ok s1 ∧
        s = { s1 with out := s1.out ++ farewell E.lineFeed r.err } := by
  obtain ⟨u, hu, hst⟩ := readLine_reachable h
  have he := step_ends hb hst
  obtain ⟨k, rest, hi⟩ : ∃ k rest, u.input = .key k :: rest := by
    cases he with
    | enter hi _ => exact ⟨_, _, hi⟩
    | interrupt hi _ => exact ⟨_, _, hi⟩
    | eof hi _ _ => exact ⟨_, _, hi⟩
    | error _ => exact absurd rfl (hr _)
    | exhausted _ => exact absurd rfl (hr _)
  refine ⟨u, k, rest, hu, hi, he, ?_⟩
  rw [step_key hi] at hst
  obtain ⟨v, rc, s1, g1, -, g3, g4⟩ := exec_feed (BuiltinKeys.builtin hb k) hst
  refine ⟨v, rc, g1, s1, g3, ?_⟩
  have := g4 E.lineFeed
  change execCmd E _ _ = _ at this
  rw [hst] at this
  injection this with this
  exact (Prod.ext_iff.mp this).1

/-- The same with the row. -/
theorem ending_row (hS : Sane E lit) (hb : BuiltinKeys E) (hw : Steady E w) {s : St} {r : RLRes}
    (h : readLine E w = .ok (s, r)) (hr : ∀ e, r.err ≠ .tty e) :
    ∃ u k rest, Reachable E w u ∧ u.input = .key k :: rest ∧ Ends E u r ∧
      (∃ t0, u.out = w.out ++ t0 ∧ ∀ row, Shows E u (Row.run E.cfg lit row t0)) ∧
      ∃ v rc, Cmd.call E (lookupCommand E k) ({ u.emit .await with input := rest }.emit .cursorOff) = .ok (v, rc) ∧
        ∃ s1 : St, (match v.suffix with
        | some _ => repaintNoSuffix E { v.emit .cursorOn with suffix := none }
        | none => .ok (v.emit .cursorOn)) = .ok s1 ∧
        s = { s1 with out := s1.out ++ farewell E.lineFeed r.err } := by
  obtain ⟨u, k, rest, hu, hi, he, hx⟩ := ending_at hb h hr
  exact ⟨u, k, rest, hu, hi, he, session_shows hS hb hw hu (by rw [hi]; simp [noResize]), hx⟩

/-- What `finish` does to the row of a state that is shown. -/
theorem finish_row (hS : Sane E lit) {v s1 : St} (ha : v.aligned E)
    (h : (match v.suffix with
      | some _ => repaintNoSuffix E { v.emit .cursorOn with suffix := none }
      | none => .ok (v.emit .cursorOn)) = .ok s1) {row0 : Row} (hV : InView E v) :
    s1.mojis = v.mojis ∧ s1.suffix = none ∧ ∃ t, s1.out = v.out ++ t ∧
      (v.suffix = none → s1 = v.emit .cursorOn) ∧
      (v.suffix ≠ none ∨ Shows E v row0 → Final E s1 (Row.run E.cfg lit row0 t)) := by
  cases hs : v.suffix with
  | none =>
    rw [hs] at h
    injection h with h
    subst h
    refine ⟨rfl, hs, [.cursorOn], rfl, fun _ => rfl, fun hx => ?_⟩
    have : Shows E v row0 := by
      rcases hx with hx | hx
      · exact absurd rfl hx
      · exact hx
    have hf := this.final hs
    exact hf
  | some x =>
    rw [hs] at h
    change repaintNoSuffix E { v.emit .cursorOn with suffix := none } = .ok s1 at h
    obtain ⟨h1, h2⟩ := repaintNoSuffix_paints (lit := lit) hS
      (s1 := { v.emit .cursorOn with suffix := none }) ha ⟨hV.low, hV.mid, hV.high, hV.fits⟩ h
    obtain ⟨-, b, o, h3⟩ := repaintNoSuffix_mojis (s1 := { v.emit .cursorOn with suffix := none }) ha h
    obtain ⟨t, e, hr⟩ := h2
    refine ⟨h1, by rw [h3], .cursorOn :: t, ?_, (by intro hx; cases hx), fun _ => ?_⟩
    · rw [e]; simp [St.emit]
    · exact (hr _).1.final (by rw [h3])

theorem accept_ends {u : St} {r : RLRes} (he : Ends E u r) (hr : r.err = .nil) :
    ∃ k rest, u.input = .key k :: rest ∧ lookupCommand E k = .acceptLine ∧ r.text = u.units.flatten := by
  cases he with
  | enter hi hc => exact ⟨_, _, hi, hc, rfl⟩
  | _ => cases hr

/-- The row when the last command did nothing. -/
theorem unchanged_row (hS : Sane E lit) (hb : BuiltinKeys E) {u s1 : St} {rest : List Ev} (hu : Reachable E w u)
    {t0 : List Tok} (e0 : u.out = w.out ++ t0) (hr0 : ∀ row, Shows E u (Row.run E.cfg lit row t0))
    (h1 : (match u.suffix with
      | some _ => repaintNoSuffix E
          { ({ u.emit .await with input := rest }.emit .cursorOff).emit .cursorOn with suffix := none }
      | none => .ok (({ u.emit .await with input := rest }.emit .cursorOff).emit .cursorOn)) = .ok s1) :
    s1.mojis = u.mojis ∧ ∃ t, s1.out = w.out ++ t ∧ ∀ row, Final E s1 (Row.run E.cfg lit row t) := by
  have ha0 := reachable_aligned hb hu
  have ha : ({ u.emit .await with input := rest }.emit .cursorOff).aligned E := ha0
  have hV : InView E ({ u.emit .await with input := rest }.emit .cursorOff) := by
    have := (hr0 ⟨0, fun _ => none, 0⟩).inView hS
    exact ⟨this.low, this.mid, this.high, this.fits⟩
  obtain ⟨hm, -, t, e, -, -⟩ := finish_row (lit := lit) (row0 := ⟨0, fun _ => none, 0⟩) hS ha h1 hV
  have hout : ({ u.emit .await with input := rest }.emit .cursorOff).out =
      w.out ++ (t0 ++ [.await, .cursorOff]) := by
    simp [St.emit, e0]
  refine ⟨hm, t0 ++ [.await, .cursorOff] ++ t, by rw [e, hout]; simp, fun row => ?_⟩
  obtain ⟨-, -, t', e', -, hf⟩ := finish_row (lit := lit)
    (row0 := Row.run E.cfg lit row (t0 ++ [.await, .cursorOff])) hS ha h1 hV
  have : t' = t := by rw [e] at e'; exact (List.append_cancel_left e').symm
  subst this
  rw [run_append]
  refine hf (Or.inr ?_)
  rw [run_append]
  exact (hr0 row).congr

/-- After Enter the row shows the line that is returned, and nothing else. -/
theorem C51_partial (hS : Sane E lit) (hb : BuiltinKeys E) (hw : Steady E w) {s : St} {r : RLRes}
    (h : readLine E w = .ok (s, r)) (hr : r.err = .nil) :
    s.text = r.text ∧ ∃ t, s.out = w.out ++ t ++ farewell E.lineFeed r.err ∧
      ∀ row, Final E s (Row.run E.cfg lit row t) := by
  obtain ⟨u, k, rest, hu, hi, he, ⟨t0, e0, hr0⟩, v, rc, hc, s1, h1, rfl⟩ :=
    ending_row hS hb hw h (by intro e; rw [hr]; simp)
  obtain ⟨k', rest', hi', hc', ht⟩ := accept_ends he hr
  rw [hi] at hi'
  injection hi' with a1 a2
  injection a1 with a1
  subst a1 a2
  rw [hc'] at hc
  injection hc with hc
  obtain ⟨rfl, -⟩ := Prod.ext_iff.mp hc
  obtain ⟨hm, t, e, hf⟩ := unchanged_row hS hb hu e0 hr0 h1
  refine ⟨?_, t, by rw [e], hf⟩
  have e1 : s1.line = u.line := by
    have : ∀ q : St, q.line = q.mojis.map Moji.norm := by
      intro q; simp [St.line, St.mojis, Function.comp_def]
    rw [this, hm, this]
  rw [ht, units_flatten]
  show s1.text = _
  rw [St.text_eq, e1]
  rfl

/-- The same with conditions on the texts, the keys and the terminal alone (see C26). -/
theorem C51_ordinary_partial {P : Nat → Prop} (hS : Sane E lit) (hb : BuiltinKeys E) (ho : Ordinary P E w) {s : St}
    {r : RLRes} (h : readLine E w = .ok (s, r)) (hr : r.err = .nil) :
    s.text = r.text ∧ ∃ t, s.out = w.out ++ t ++ farewell E.lineFeed r.err ∧
      ∀ row, Final E s (Row.run E.cfg lit row t) :=
  C51_partial hS hb (ordinary_steady hb ho) h hr

/-- Lines with tabs (see C26): the row shows the whole line that is returned. -/
theorem C51_tabs_partial (hS : Sane E lit) (hb : BuiltinKeys E) (hw : Unscrolled E w) {s : St} {r : RLRes}
    (h : readLine E w = .ok (s, r)) (hr : r.err = .nil) :
    s.text = r.text ∧ ∃ t, s.out = w.out ++ t ++ farewell E.lineFeed r.err ∧
      ∀ row x, s.topColumn ≤ x → (Row.run E.cfg lit row t).cells x = layout E.cfg s.mojis s.topColumn x := by
  obtain ⟨u, k, rest, hu, hi, he, v, rc, hc, s1, h1, rfl⟩ := ending_at hb h (by intro e; rw [hr]; simp)
  obtain ⟨t0, e0, hr0⟩ := session_entire hS hb hw hu (by rw [hi]; simp [noResize])
  obtain ⟨k', rest', hi', hc', ht⟩ := accept_ends he hr
  rw [hi] at hi'
  injection hi' with a1 a2
  injection a1 with a1
  subst a1 a2
  rw [hc'] at hc
  injection hc with hc
  obtain ⟨rfl, -⟩ := Prod.ext_iff.mp hc
  have hline : s1.mojis = u.mojis → s1.text = r.text := by
    intro hm
    have e1 : s1.line = u.line := by
      have : ∀ q : St, q.line = q.mojis.map Moji.norm := by
        intro q; simp [St.line, St.mojis, Function.comp_def]
      rw [this, hm, this]
    rw [ht, units_flatten, St.text_eq, e1]
    rfl
  have hout : ({ u.emit .await with input := rest }.emit .cursorOff).out = w.out ++ (t0 ++ [.await, .cursorOff]) := by
    simp [St.emit, e0]
  have hE : ∀ row, Entire E ({ u.emit .await with input := rest }.emit .cursorOff)
      (Row.run E.cfg lit row (t0 ++ [.await, .cursorOff])) := by
    intro row
    rw [run_append]
    exact (hr0 row).congr
  cases hs : u.suffix with
  | none =>
    have h1 : (Except.ok (({ u.emit .await with input := rest }.emit .cursorOff).emit .cursorOn) : M St) = .ok s1 := by
      have hs' : ({ u.emit .await with input := rest }.emit .cursorOff : St).suffix = none := hs
      rw [hs'] at h1; exact h1
    injection h1 with h1
    subst h1
    refine ⟨hline rfl, t0 ++ [.await, .cursorOff] ++ [.cursorOn], ?_, fun row x hx => ?_⟩
    · simp [St.emit, e0]
    · rw [run_append]
      exact (hE row).cells x hx
  | some y =>
    have h1 : repaintNoSuffix E { ({ u.emit .await with input := rest }.emit .cursorOff).emit .cursorOn with suffix := none } = .ok s1 := by
      have hs' : ({ u.emit .await with input := rest }.emit .cursorOff : St).suffix = some y := hs
      rw [hs'] at h1; exact h1
    have hA := hw.ample _ hu
    have ha := reachable_aligned hb hu
    obtain ⟨-, t, e, hl⟩ := repaintNoSuffix_lays (lit := lit) hS hw.predict
      (s1 := { ({ u.emit .await with input := rest }.emit .cursorOff).emit .cursorOn with suffix := none })
      (hr0 ⟨0, fun _ => none, 0⟩).start hA h1
    obtain ⟨hm, -, -⟩ := repaintNoSuffix_mojis
      (s1 := { ({ u.emit .await with input := rest }.emit .cursorOff).emit .cursorOn with suffix := none })
      ha h1
    refine ⟨hline hm, t0 ++ [.await, .cursorOff, .cursorOn] ++ t, ?_, fun row x hx => ?_⟩
    · show s1.out ++ _ = _
      rw [e]; simp [St.emit, e0]
    · rw [run_append]
      exact (hl _).1.cells x hx

theorem Spec.Final.empty {s : St} {row : Row} (h : Final E s row) (hm : s.mojis = []) {x : Int}
    (hx : s.topColumn ≤ x) : row.cells x = none := by
  obtain ⟨right, h1, -, h3⟩ := h
  have hb : ∀ lo hi, s.between lo hi = [] := by intro lo hi; unfold St.between; rw [hm]; simp
  rw [hb] at h1
  rw [h3 x hx, hb, List.prefix_nil.mp h1]
  rfl

/-- After Ctrl-D on an empty line the row is empty behind the prompt. -/
theorem C51_eof_partial (hS : Sane E lit) (hb : BuiltinKeys E) (hw : Steady E w) {s : St} {r : RLRes}
    (h : readLine E w = .ok (s, r)) (hr : r.err = .eof) :
    ∃ t, s.out = w.out ++ t ++ farewell E.lineFeed r.err ∧
      ∀ row x, s.topColumn ≤ x → (Row.run E.cfg lit row t).cells x = none := by
  obtain ⟨u, k, rest, hu, hi, he, ⟨t0, e0, hr0⟩, v, rc, hc, s1, h1, rfl⟩ :=
    ending_row hS hb hw h (by intro e; rw [hr]; simp)
  obtain ⟨k', rest', hi', hc', hul⟩ : ∃ k rest, u.input = .key k :: rest ∧
      lookupCommand E k = .deleteOrAbort ∧ u.units = [] := by
    cases he with
    | eof hi hc hu => exact ⟨_, _, hi, hc, hu⟩
    | _ => cases hr
  rw [hi] at hi'
  injection hi' with a1 a2
  injection a1 with a1
  subst a1 a2
  have hbuf : u.buf = [] := by
    rw [St.units_eq] at hul
    exact List.map_eq_nil_iff.mp (List.map_eq_nil_iff.mp hul)
  rw [hc'] at hc
  have hc : Cmd.call E .deleteOrAbort ({ u.emit .await with input := rest }.emit .cursorOff) =
      .ok ({ u.emit .await with input := rest }.emit .cursorOff, .abort) := by
    show cmdDeleteOrAbort E _ = _
    unfold cmdDeleteOrAbort
    rw [if_neg]
    · rfl
    · simp [St.len, St.emit, hbuf]
  rename_i hc0
  rw [hc] at hc0
  injection hc0 with hc0
  obtain ⟨rfl, -⟩ := Prod.ext_iff.mp hc0
  obtain ⟨hm, t, e, hf⟩ := unchanged_row hS hb hu e0 hr0 h1
  refine ⟨t, by rw [e], fun row x hx => ?_⟩
  exact (hf row).empty (by rw [hm]; simp [St.mojis, hbuf]) hx

/-- After Ctrl-C: the line is still shown if nothing was predicted (or predictions are switched
off), otherwise it is erased. -/
theorem C51_interrupt_partial (hS : Sane E lit) (hb : BuiltinKeys E) (hw : Steady E w) {s : St} {r : RLRes}
    (h : readLine E w = .ok (s, r)) (hr : r.err = .ctrlC) :
    ∃ u, Reachable E w u ∧ ∃ t, s.out = w.out ++ t ++ farewell E.lineFeed r.err ∧ ∀ row,
      (u.suffix = none → Final E u (Row.run E.cfg lit row t)) ∧
      (u.suffix ≠ none → ∀ x, u.topColumn ≤ x → (Row.run E.cfg lit row t).cells x = none) := by
  obtain ⟨u, k, rest, hu, hi, he, ⟨t0, e0, hr0⟩, v, rc, hc, s1, h1, rfl⟩ :=
    ending_row hS hb hw h (by intro e; rw [hr]; simp)
  obtain ⟨k', rest', hi', hc'⟩ : ∃ k rest, u.input = .key k :: rest ∧
      lookupCommand E k = .interrupt := by
    cases he with
    | interrupt hi hc => exact ⟨_, _, hi, hc⟩
    | _ => cases hr
  rw [hi] at hi'
  injection hi' with a1 a2
  injection a1 with a1
  subst a1 a2
  rw [hc'] at hc
  injection hc with hc
  obtain ⟨rfl, -⟩ := Prod.ext_iff.mp hc
  have hvw : 0 < u.viewWidth := by
    have hs := hr0 ⟨0, fun _ => none, 0⟩
    have := hs.inView hS
    have h2 := (hS.wide (u.between u.viewStart u.cursor)).columns
    have := this.fits
    omega
  generalize hv : ({ { u.emit .await with input := rest }.emit .cursorOff with
    buf := [], cursor := 0, viewStart := 0, undoes := [] } : St) = v at *
  have hvs : v.suffix = u.suffix := by rw [← hv]; rfl
  have hvt : v.topColumn = u.topColumn := by rw [← hv]; rfl
  have hvm : v.mojis = [] := by rw [← hv]; rfl
  have hout : v.out = w.out ++ (t0 ++ [.await, .cursorOff]) := by
    rw [← hv]; simp [St.emit, e0]
  have ha : v.aligned E := St.noTabs_aligned (by rw [hvm]; simp)
  have hV : InView E v := by
    rw [← hv]
    refine ⟨Int.le_refl _, Int.le_refl _, Int.le_refl _, ?_⟩
    exact hvw
  obtain ⟨hm, -, t, e, -, -⟩ := finish_row (lit := lit) (row0 := ⟨0, fun _ => none, 0⟩) hS ha h1 hV
  refine ⟨u, hu, t0 ++ [.await, .cursorOff] ++ t, by rw [e, hout]; simp, fun row => ⟨fun hn => ?_, fun hn => ?_⟩⟩
  · obtain ⟨-, -, t', e', hf, -⟩ := finish_row (lit := lit) (row0 := row) hS ha h1 hV
    have hf := hf (by rw [hvs]; exact hn)
    have : t' = t := by rw [e] at e'; exact (List.append_cancel_left e').symm
    subst this
    have : t' = [.cursorOn] := by
      rw [hf] at e'
      exact (List.append_cancel_left (show v.out ++ [.cursorOn] = v.out ++ t' from e')).symm
    subst this
    rw [run_append, run_append]
    exact (hr0 row).final hn
  · obtain ⟨hm, -, t', e', -, hf⟩ := finish_row (lit := lit)
      (row0 := Row.run E.cfg lit row (t0 ++ [.await, .cursorOff])) hS ha h1 hV
    have : t' = t := by rw [e] at e'; exact (List.append_cancel_left e').symm
    subst this
    intro x hx
    rw [run_append]
    refine (hf (Or.inl (by rw [hvs]; exact hn))).empty (by rw [hm, hvm]) ?_
    have : s1.topColumn = v.topColumn := by
      cases hs : v.suffix with
      | none => rw [hs] at h1; injection h1 with h1; rw [← h1]; rfl
      | some y =>
        rw [hs] at h1
        obtain ⟨-, b, o, h3⟩ := repaintNoSuffix_mojis (s1 := { v.emit .cursorOn with suffix := none }) ha h1
        rw [h3]; rfl
    rw [this, hvt]
    exact hx

/-! ## Cases -/

section
open Example

/-- The session of C26 ends with Enter. -/
example : ∃ s r, readLine busyEnv busy = .ok (s, r) ∧ r.err = .nil ∧ r.text ≠ [] := by
  have h : (match readLine busyEnv busy with
      | .ok (_, r) => decide (r.err = .nil ∧ r.text ≠ [])
      | .error _ => false) = true := by decide +kernel
  cases hr : readLine busyEnv busy with
  | error e => rw [hr] at h; cases h
  | ok q => rw [hr] at h; exact ⟨q.1, q.2, rfl, of_decide_eq_true h⟩

/-- `a`, Ctrl-C and `Ctrl-D` on the empty line are steady sessions. -/
theorem interrupt_steady : Steady busyEnv { input := keys ["a", "\x03"] } :=
  steadyCheck_ok (k := 1) (defaultKeys_builtin plain) (by decide +kernel)

example : Steady busyEnv { input := keys ["\x04"] } :=
  steadyCheck_ok (k := 1) (defaultKeys_builtin plain) (by decide +kernel)

/-- The columns 2.. of the row and the error at the end of a session, without what is written
after the end. -/
def atEnd (E : Env) (w : World) : Option (List Spec.Shown × RLErr) :=
  match readLine E w with
  | .ok (s, r) => some ([2, 3].map (Row.run E.cfg mute ⟨0, fun _ => none, 0⟩
      (s.out.take (s.out.length - (farewell E.lineFeed r.err).length))).cells, r.err)
  | .error _ => none

/-- `a`, Ctrl-C: the `a` stays on the screen, or is erased if predictions are switched on. -/
theorem C51_refuted :
    atEnd (env plain) { input := keys ["a", "\x03"] } = some ([some (.raw 0x61, 0), none], .ctrlC) ∧
    atEnd busyEnv { input := keys ["a", "\x03"] } = some ([none, none], .ctrlC) := by
  constructor <;> decide +kernel

end

end Readline
