import Verif.Proof.Statements
import Verif.Proof.Trace
import Verif.Props.C01
import Verif.Props.C42
/-!
# C30: a resize is atomic and harmless

The goroutine of the editor and the goroutine that watches the window size, in every interleaving,
with the code of a command and of the callback cut into steps in any way (`Faithful`).

* `C30_exclusive`: the two are never inside the mutex at once, in no schedule whatever.
* `C30_partial`: in every schedule, whenever nobody is inside the mutex the state is the one that
  some sequence of whole commands and whole callbacks leads to, in the order of the locks, and so
  are the result and every panic.
* `C30_session_partial`, `C30_result_partial`: that sequence is a session of `readLine` with the
  resizes put somewhere between the keys, so everything proved about sessions holds for every
  schedule.
* `C30_same_partial`: any two schedules return the same result.
* `C30_resize`: a callback changes no text, no cursor, no undo log and so on.
* `C30_live_partial`: in every state of every schedule the editor can get to where it waits for a
  key or has returned.

What is missing, and false in the program: the callbacks may also come while the start of
`ReadLine` runs, which does not take the mutex (`early`).  Then a resize can be lost
(`C30_refuted_lost`) and a left-over `Editor.Cursor` crashes the program (`C30_refuted_crash`).
After a panic in a command the mutex stays locked, and with tty10 the deferred `Close` then waits
for ever (`C30_refuted_deadlock`): the panic never ends the program.
-/
namespace Readline
open Spec

/-- The editor is between `Lock` and `Unlock`. -/
def Spec.EdInside {K : Code} (g : G K) : Prop := (∃ l, g.ed = .running l) ∨ ∃ o, g.ed = .unlocking o

/-- The watcher is between `Lock` and `Unlock`. -/
def Spec.WaInside {K : Code} (g : G K) : Prop := (∃ r, g.wa = .running r) ∨ g.wa = .unlocking

/-- **C30**, the mutex: whatever the code is and whatever the Tty does. -/
theorem C30_exclusive {K : Code} {joins early : Bool} {E : Env} {w : World} {g : G K}
    (h : Steps K joins early (G.init K E w) g) : ¬ (EdInside g ∧ WaInside g) := by
  have hx := excl_steps excl_init h
  rintro ⟨⟨l, h1⟩ | ⟨o, h1⟩, ⟨r, h2⟩ | h2⟩
  · have := (hx.ed l h1).symm.trans (hx.wa r h2); cases this
  · have := (hx.ed l h1).symm.trans (hx.waUn h2); cases this
  · have := (hx.edUn o h1).symm.trans (hx.wa r h2); cases this
  · have := (hx.edUn o h1).symm.trans (hx.waUn h2); cases this

/-- **C30**, atomic: `w0` is the width `Tty.Size` reported at the start. -/
theorem C30_partial {K : Code} {joins : Bool} {E : Env} {w : World} {g : G K}
    (hF : Faithful E K) (hE : OutBlindKeys E) (h : Steps K joins false (G.init K E w) g) :
    -- nobody inside the mutex: what was done so far was done one after the other
    (g.ed.started → (∀ k, g.ed ≠ .closing (.error k) ∧ g.ed ≠ .returned (.error k)) →
      (∀ k, g.wa ≠ .crashed k) → ¬ EdInside g → ¬ WaInside g →
      ∃ w0 o s, Serial E { w with termWidth := w0 } g.log o s ∧ AsIf s g.mem) ∧
    -- the result is the result of that sequence
    (∀ r, g.ed = .returned (.ok r) →
      ∃ w0 ops o s, Serial E { w with termWidth := w0 } ops o s ∧ (o = some r ∨ (o = none ∧ TtyErr s r))) ∧
    -- a panic is a panic of that sequence
    (∀ k, g.ed = .returned (.error k) → ∃ w0, SerialFails E { w with termWidth := w0 } k) := by
  have hi := inv_steps hF hE h
  unfold Inv at hi
  refine ⟨fun h1 h2 h3 h4 h5 => ?_, fun r hr => ?_, fun k hk => ?_⟩
  · have hm : Main E w g := by
      have hmain : g.ed.main := by
        cases he : g.ed with
        | sizing => rw [he] at h1; exact h1
        | sized => rw [he] at h1; exact h1
        | starting => rw [he] at h1; exact h1
        | closing r => cases r with | ok r => trivial | error k => exact absurd he (h2 k).1
        | returned r => cases r with | ok r => trivial | error k => exact absurd he (h2 k).2
        | _ => trivial
      rwa [InvAt.main hmain] at hi
    obtain ⟨w0, ops, o, s, hs, -, hp⟩ := hm
    obtain ⟨h6, h7⟩ := hp.isRest (fun l hl => h4 (.inl ⟨l, hl⟩)) (fun r hr => h5 (.inl ⟨r, hr⟩)) h3
    exact ⟨w0, o, s, by rw [h6]; exact hs, h7⟩
  · rw [hr, InvAt.main (by trivial)] at hi
    obtain ⟨w0, ops, o, s, hs, ho, -⟩ := hi
    rw [hr] at ho
    exact ⟨w0, ops, o, s, hs, ho⟩
  · rw [hk] at hi
    exact hi

/-- **C30**, harmless: a callback changes nothing but the screen and the prediction. -/
theorem C30_resize {E : Env} {s s' : St} {w' : Int} (h : onResize E s w' = .ok s') :
    s'.units = s.units ∧ s'.text = s.text ∧ s'.cursor = s.cursor ∧ s'.undoes = s.undoes ∧ s'.clip = s.clip ∧
      s'.pending = s.pending ∧ s'.histPtr = s.histPtr ∧ s'.modHist = s.modHist ∧ s'.input = s.input := by
  have ho := Obs.of_predict (onResize_ed h)
  have hl : s'.line = s.line := ho.line
  have hu : s'.units = s.units := by rw [St.units_eq, St.units_eq, hl]
  exact ⟨hu, by rw [St.text_eq, St.text_eq, hl], ho.cursor, ho.undoes, ho.clip, ho.pending, ho.histPtr, ho.modHist, ho.input⟩

/-- **C30**, the session: while the editing goes on the goroutines are where some session of
`readLine` is, with the same keys and the resizes somewhere between them. -/
theorem C30_session_partial {K : Code} {joins : Bool} {E : Env} {w : World} {g : G K}
    (hF : Faithful E K) (hb : BuiltinKeys E) (hn : noResize w.input = w.input)
    (h : Steps K joins false (G.init K E w) g) (he : g.ed = .idle ∨ g.ed = .waiting)
    (hw : ¬ WaInside g) (hc : ∀ k, g.wa ≠ .crashed k) :
    ∃ w0 evs t, noResize evs = w.input ∧ Reachable E { w with termWidth := w0, input := evs } t ∧
      AsIf t g.mem ∧ t.input = g.mem.input := by
  have hi := inv_steps hF (fun k f h => absurd h (hb k f)) h
  unfold Inv at hi
  have hmain : g.ed.main := by rcases he with he | he <;> rw [he] <;> trivial
  rw [InvAt.main hmain] at hi
  obtain ⟨w0, ops, o, s, hs, ho, hp⟩ := hi
  obtain ⟨-, h7⟩ := hp.isRest (fun l hl => by rcases he with he | he <;> rw [he] at hl <;> cases hl)
    (fun r hr => hw (.inl ⟨r, hr⟩)) hc
  have ho' : o = none ∧ g.mem.input = s.input := by rcases he with he | he <;> rw [he] at ho <;> exact ho
  obtain ⟨ho1, ho2⟩ := ho'
  subst ho1
  obtain ⟨evs, h1, t, ht, hst, hti⟩ := serial_session hb (w := { w with termWidth := w0 }) hn hs rfl s.input
    (serial_keys hb (w := { w with termWidth := w0 }) hn hs)
  exact ⟨w0, evs, t, h1, ht, ⟨hst.1.symm.trans h7.1, hst.2.symm.trans h7.2⟩, hti.trans ho2.symm⟩

/-- **C30**, the result: what `ReadLine` returns is what `readLine` returns for the same keys with
the resizes somewhere between them. -/
theorem C30_result_partial {K : Code} {joins : Bool} {E : Env} {w : World} {g : G K}
    (hF : Faithful E K) (hb : BuiltinKeys E) (hn : noResize w.input = w.input)
    (h : Steps K joins false (G.init K E w) g) {r : RLRes} (hr : g.ed = .returned (.ok r)) :
    ∃ w0 evs t, noResize evs = w.input ∧ readLine E { w with termWidth := w0, input := evs } = .ok (t, r) := by
  obtain ⟨w0, ops, o, s, hs, ho⟩ := (C30_partial hF (fun k f h => absurd h (hb k f)) h).2.1 r hr
  rcases ho with ho | ⟨ho, ht⟩
  · obtain ⟨evs, h1, t, h2⟩ := serial_result hb (w := { w with termWidth := w0 }) hn hs ho
    exact ⟨w0, evs, t, h1, h2⟩
  · subst ho
    obtain ⟨evs, h1, t, h2⟩ := serial_ttyErr hb (w := { w with termWidth := w0 }) hn hs ht
    exact ⟨w0, evs, t, h1, h2⟩

theorem mem_noResize {k : Bytes} : ∀ {l : List Ev}, Ev.key k ∈ l → Ev.key k ∈ noResize l
  | .key k' :: l, h => by
    rcases List.mem_cons.mp h with h | h
    · rw [h]; exact List.mem_cons_self
    · exact List.mem_cons_of_mem _ (mem_noResize h)
  | .err e :: l, h => by
    rcases List.mem_cons.mp h with h | h
    · cases h
    · exact List.mem_cons_of_mem _ (mem_noResize h)
  | .resize w :: l, h => by
    rcases List.mem_cons.mp h with h | h
    · cases h
    · exact mem_noResize (l := l) h

/-- **C30**, deterministic: any two schedules, with any Ttys, return the same result. -/
theorem C30_same_partial {K₁ K₂ : Code} {joins₁ joins₂ : Bool} {E : Env} {w : World} {g₁ : G K₁} {g₂ : G K₂}
    (hF₁ : Faithful E K₁) (hF₂ : Faithful E K₂) (hb : BuiltinKeys E) (hn : noResize w.input = w.input)
    (hs : E.logic.predictOn = false ∨ ∀ k, Ev.key k ∈ w.input → stales (lookupCommand E k) = false)
    (h₁ : Steps K₁ joins₁ false (G.init K₁ E w) g₁) (h₂ : Steps K₂ joins₂ false (G.init K₂ E w) g₂)
    {r₁ r₂ : RLRes} (hr₁ : g₁.ed = .returned (.ok r₁)) (hr₂ : g₂.ed = .returned (.ok r₂)) : r₁ = r₂ := by
  obtain ⟨w1, e1, t1, hn1, hl1⟩ := C30_result_partial hF₁ hb hn h₁ hr₁
  obtain ⟨w2, e2, t2, hn2, hl2⟩ := C30_result_partial hF₂ hb hn h₂ hr₂
  refine (C42_same_partial hb (w₁ := { w with termWidth := w1, input := e1 })
    (w₂ := { w with termWidth := w2, input := e2 }) rfl rfl (hn1.trans hn2.symm) ?_ hl1 hl2).1
  refine hs.imp_right fun h k hk => h k ?_
  rw [← hn1]
  exact mem_noResize hk

/-- **C30**, nobody waits for ever: from every state of every schedule there is a way on to where
the editor waits for a key, has returned, or a panic has happened. -/
theorem C30_live_partial {K : Code} {joins : Bool} {E : Env} {w : World} {g : G K}
    (hF : Faithful E K) (hE : OutBlindKeys E) (h : Steps K joins false (G.init K E w) g) :
    ∃ g', Steps K joins false g g' ∧ (g'.ed = .waiting ∨ (∃ r, g'.ed = .returned r) ∨
      (∃ k, g'.ed = .closing (.error k)) ∨ ∃ k, g'.wa = .crashed k) :=
  settles hF hE h

/-! ## What the program does not guarantee -/

theorem onResize_early {E : Env} {s : St} (hb : s.buf = []) (hc : 0 < s.cursor) (w' : Int) :
    ∃ e, onResize E s w' = .error e ∧ e.kind = .stale := by
  have key : ∀ t : St, t.buf = [] → t.viewStart = 0 → 0 < t.cursor → ∃ e, repaint E t = .error e ∧ e.kind = .stale := by
    intro t h1 h2 h3
    have hu : (updateSuffix E t).buf = [] ∧ (updateSuffix E t).viewStart = 0 ∧ (updateSuffix E t).cursor = t.cursor := by
      unfold updateSuffix
      split
      · exact ⟨h1, h2, rfl⟩
      · split <;> exact ⟨h1, h2, rfl⟩
    refine ⟨⟨.stale, updateSuffix E t⟩, ?_, rfl⟩
    unfold repaint repaintNoSuffix getView2 getView slice St.len
    rw [hu.1, hu.2.1, hu.2.2]
    have h4 : ¬ t.cursor ≤ ((0 : Nat) : Int) := by omega
    have h5 : (0 : Int) ≤ 0 ∧ (0 : Int) ≤ t.cursor := by omega
    simp only [List.length_nil, h4, h5, and_self, if_true, if_false]
    rfl
  unfold onResize repaintLastLine
  have hv : (resetViewStart E { s with termWidth := w' }).viewStart = 0 := by
    unfold resetViewStart
    show ((resetOuter E.cfg s.buf _ s.cursor s.buf 0 0 0 : Nat) : Int) = 0
    rw [hb]
    rfl
  dsimp only
  split
  · exact key _ hb hv hc
  · exact key _ hb hv hc

/-- **The start does not take the mutex**: whenever `Editor.Cursor` was left above 0 (by an earlier
line), a callback before the default text is in the buffer crashes the program.  (In Go the cells
up to the capacity 20 are nil and printing them panics; beyond it the slice expression panics.) -/
theorem C30_refuted_crash {K : Code} {joins : Bool} {E : Env} {w : World} (hF : Faithful E K)
    (hc : 0 < w.cursor) (w' : Int) :
    ∃ g, Steps K joins true (G.init K E w) g ∧ g.wa = .crashed .stale := by
  obtain ⟨e, he, hk⟩ := onResize_early (E := E) (s := bufferSt E w) rfl hc w'
  have h1 : Steps K joins true (G.init K E w) { mem := bufferSt E w, wa := .locking w' } :=
    .one (fun _ => nofun) (.tick w' nofun rfl)
  have h2 : Steps K joins true { mem := bufferSt E w, wa := .locking w' }
      ({ mem := bufferSt E w, wa := .running (K.call w'), lock := some .watcher, log := [.resize w'] } : G K) :=
    .one (fun _ => nofun) (.watchLock rfl rfl)
  have h3 := hF.back w' (bufferSt E w)
  have h4 : resizePart E w' (bufferSt E w) = .error e := by unfold resizePart; rw [he]; rfl
  rw [h4] at h3
  have h5 := (run_back (joins := joins) (early := true) h3
    (g := { mem := bufferSt E w, wa := .running (K.call w'), lock := some .watcher, log := [.resize w'] }) rfl rfl).2 e rfl
  exact ⟨_, (h1.trans h2).trans h5, by show WaPc.crashed e.kind = _; rw [hk]⟩

/-- **`GetKey` does not take the mutex**: whenever a session waits for a key, a callback can be in
the middle of its writing while the editor is about to flush the same `bufio.Writer`
(buffer.go:244).  In the model a step is atomic, so this does no harm; in Go it is a data race. -/
theorem C30_refuted_race {K : Code} {joins early : Bool} {E : Env} {w : World} (hF : Faithful E K)
    (hb : BuiltinKeys E) (hn : noResize w.input = w.input) {s : St} (hr : Reachable E w s) (w' : Int) :
    ∃ g, Steps K joins early (G.init K E w) g ∧ g.mem = s ∧ WaInside g ∧ g.lock = some .watcher ∧ g.ed = .idle ∧
      ∃ g', Step K joins early g g' ∧ g'.ed = .waiting ∧ WaInside g' := by
  obtain ⟨log, hs, -⟩ := follow (joins := joins) (early := early) hF hb hn hr
  have h2 : Steps K joins early { mem := s, ed := .idle, log := log }
      ({ mem := s, ed := .idle, wa := .locking w', log := log } : G K) :=
    .one (fun _ => nofun) (.tick w' (fun _ => trivial) rfl)
  have h3 : Steps K joins early { mem := s, ed := .idle, wa := .locking w', log := log }
      ({ mem := s, ed := .idle, wa := .running (K.call w'), lock := some .watcher, log := log ++ [.resize w'] } : G K) :=
    .one (fun _ => nofun) (.watchLock rfl rfl)
  exact ⟨_, (hs.trans h2).trans h3, rfl, .inl ⟨_, rfl⟩, rfl, rfl, _, .flush rfl, rfl, .inl ⟨_, rfl⟩⟩

open Example in
/-- **The start does not take the mutex**: the width 80 is read, the callback sets the new width 40,
then the start assigns 80.  The editor waits for keys with the width 80, although the only callback
said 40; no sequence of whole commands and callbacks does that. -/
theorem C30_refuted_lost :
    ∃ g : G (stmts (env plain)), Steps (stmts (env plain)) true true (G.init _ (env plain) {}) g ∧
      g.ed = .idle ∧ g.log = [.resize 40] ∧ g.mem.termWidth = 80 ∧
      ∀ w0 o s, Serial (env plain) { termWidth := w0 } [.resize 40] o s → s.termWidth = 40 := by
  obtain ⟨E, hE⟩ : ∃ E, E = env plain := ⟨_, rfl⟩
  have hF := stmts_faithful E
  obtain ⟨s1, h1⟩ : ∃ s1, onResize E (bufferSt E {}) 40 = .ok s1 := by
    rw [hE]
    have : (onResize (env plain) (bufferSt (env plain) {}) 40).isOk = true := by decide +kernel
    cases h : onResize (env plain) (bufferSt (env plain) {}) 40 with
    | ok a => exact ⟨a, rfl⟩
    | error e => rw [h] at this; cases this
  obtain ⟨s2, h2, h3⟩ : ∃ s2, startFrom E { s1 with termWidth := 80 } = .ok s2 ∧ s2.termWidth = 80 := by
    have : (do let s1 ← onResize (env plain) (bufferSt (env plain) {}) 40
               let s2 ← startFrom (env plain) { s1 with termWidth := 80 }
               return s2.termWidth : M Int).toOption = some 80 := by decide +kernel
    rw [← hE, h1] at this
    cases h : startFrom E { s1 with termWidth := 80 } with
    | ok a =>
      refine ⟨a, rfl, ?_⟩
      have h' : (do let s2 ← startFrom E { s1 with termWidth := 80 }
                    return s2.termWidth : M Int).toOption = some 80 := this
      rw [h] at h'
      injection h'
    | error e =>
      have h' : (do let s2 ← startFrom E { s1 with termWidth := 80 }
                    return s2.termWidth : M Int).toOption = some 80 := this
      rw [h] at h'
      cases h'
  rw [← hE]
  refine ⟨{ mem := s2, ed := .idle, log := [.resize 40] }, ?_, rfl, rfl, h3, ?_⟩
  · have t1 : Steps (stmts E) true true (G.init _ E {}) { mem := bufferSt E {}, ed := .sized 80 } :=
      .one (fun _ => nofun) (.size 80 rfl)
    have t2 : Steps (stmts E) true true { mem := bufferSt E {}, ed := .sized 80 }
        { mem := bufferSt E {}, ed := .sized 80, wa := .locking 40 } := .one (fun _ => nofun) (.tick 40 nofun rfl)
    have t3 : Steps (stmts E) true true { mem := bufferSt E {}, ed := .sized 80, wa := .locking 40 }
        { mem := bufferSt E {}, ed := .sized 80, wa := .running ((stmts E).call 40), lock := some .watcher,
          log := [.resize 40] } := .one (fun _ => nofun) (.watchLock rfl rfl)
    have r := hF.back 40 (bufferSt E {})
    have hr : resizePart E 40 (bufferSt E {}) = .ok (s1, ()) := by unfold resizePart; rw [h1]; rfl
    rw [hr] at r
    have t4 := (run_back (joins := true) (early := true) r
      (g := { mem := bufferSt E {}, ed := .sized 80, wa := .running ((stmts E).call 40), lock := some .watcher,
              log := [.resize 40] }) rfl rfl).1 s1 rfl
    have t5 : Steps (stmts E) true true
        { mem := s1, ed := .sized 80, wa := .unlocking, lock := some .watcher, log := [.resize 40] }
        { mem := s1, ed := .sized 80, log := [.resize 40] } := .one (fun _ => nofun) (.watchUnlock rfl)
    have t6 : Steps (stmts E) true true { mem := s1, ed := .sized 80, log := [.resize 40] }
        { mem := { s1 with termWidth := 80 }, ed := .starting (stmts E).begin, log := [.resize 40] } :=
      .one (fun _ => nofun) (.assign rfl)
    have a := hF.start { s1 with termWidth := 80 }
    rw [h2] at a
    have t7 := (run_start (joins := true) (early := true) a
      (g := { mem := { s1 with termWidth := 80 }, ed := .starting (stmts E).begin, log := [.resize 40] }) rfl rfl
      (fun _ => nofun)).1 s2 rfl
    exact (((((t1.trans t2).trans t3).trans t4).trans t5).trans t6).trans t7
  · intro w0 o s hs
    have width : ∀ {s s' : St} {w' : Int}, onResize E s w' = .ok s' → s'.termWidth = w' := fun h => (repaintLastLine_q (Quiet.refl _)).ok h |>.width
    generalize hops : ([.resize 40] : List Op) = ops at hs
    cases hs with
    | start => cases hops
    | @key ops' _ _ _ _ _ h =>
      have := congrArg List.getLast? hops
      simp at this
    | @resize ops' _ _ w' _ h h' =>
      have h4 := congrArg List.getLast? hops
      simp at h4
      rw [width h', ← h4]

/-- **A panic in a command**: whenever a session comes to a key whose command panics, the two
goroutines can come to a state with no step at all: the editor, which still holds the mutex, waits
in the deferred `Close` of tty10 for the watcher, and the watcher waits for the mutex.  The panic
is never reported. -/
theorem C30_refuted_deadlock {K : Code} {early : Bool} {E : Env} {w : World} (hF : Faithful E K)
    (hb : BuiltinKeys E) (hn : noResize w.input = w.input) {s : St} (hr : Reachable E w s) {e : Panic}
    (he : step E s = .error e) (w' : Int) :
    ∃ g, Steps K true early (G.init K E w) g ∧ g.ed = .closing (.error e.kind) ∧ g.wa = .locking w' ∧
      ∀ g', ¬ Step K true early g g' := by
  obtain ⟨log, hs, hk⟩ := follow (joins := true) (early := early) hF hb hn hr
  cases hi : s.input with
  | nil => unfold step at he; rw [hi] at he; cases he
  | cons x rest =>
    rw [hi] at hk
    cases x with
    | resize w => exact absurd hk noResize_resize
    | err e => unfold step at he; rw [hi] at he; cases he
    | key k =>
      have h3 : execCmd E (lookupCommand E k) { s.emit .await with input := rest } = .error e := by
        unfold step at he; rw [hi] at he; exact he
      have h4 : lockedPart E k { s.emit .await with input := rest } = .error e := by
        rw [execCmd_eq] at h3
        cases hx : lockedPart E k { s.emit .await with input := rest } with
        | error e' => rw [hx] at h3; exact h3
        | ok a => rw [hx] at h3; obtain ⟨t, o⟩ := a; cases o <;> cases h3
      have h5 := follow_key (joins := true) (early := early) (K := K)
        (g := { mem := s, ed := .idle, log := log }) rfl rfl hi (fun _ => nofun)
      have h5' : Steps K true early
          ({ mem := { s.emit .await with input := rest }, ed := .running (K.enter k), lock := some .editor,
             log := log ++ [.key k] } : G K)
          { mem := { s.emit .await with input := rest }, ed := .running (K.enter k), lock := some .editor,
            wa := .locking w', log := log ++ [.key k] } := .one (fun _ => nofun) (.tick w' (fun _ => trivial) rfl)
      have h6 := hF.body k { s.emit .await with input := rest }
      rw [h4] at h6
      have h7 := (run_body (joins := true) (early := early) h6
        (g := { mem := { s.emit .await with input := rest }, ed := .running (K.enter k), lock := some .editor,
                wa := .locking w', log := log ++ [.key k] }) rfl rfl (fun _ => nofun)).2 e rfl
      refine ⟨_, ((hs.trans h5).trans h5').trans h7, rfl, rfl, ?_⟩
      intro g' hstep
      generalize hg : ({ mem := e.st, ed := .closing (.error e.kind), lock := some .editor, wa := .locking w',
                         log := log ++ [.key k] } : G K) = g at hstep
      cases hstep <;> subst hg <;> simp_all

open Example in
/-- The panic of `C01_refuted_swap`: "a", "b", Ctrl-T, Ctrl-Z. -/
theorem C30_refuted_swap (w' : Int) :
    ∃ g : G (stmts (env plain)), Steps (stmts (env plain)) true false
        (G.init _ (env plain) { input := keys ["a", "b", "\x14", "\x1a"] }) g ∧
      g.ed = .closing (.error .bounds) ∧ g.wa = .locking w' ∧
      ∀ g', ¬ Step (stmts (env plain)) true false g g' := by
  have hb := defaultKeys_builtin plain
  cases h : readLine (env plain) { input := keys ["a", "b", "\x14", "\x1a"] } with
  | ok a => have := C01_refuted_swap; rw [h] at this; cases this
  | error e =>
    have hk : e.kind = .bounds := by
      have := C01_refuted_swap
      rw [h] at this
      injection this
    rcases readLine_error hb h with h0 | ⟨t, ht, h1⟩
    · have : (startSt (env plain) { input := keys ["a", "b", "\x14", "\x1a"] }).isOk = true := by decide +kernel
      rw [h0] at this
      cases this
    · have := C30_refuted_deadlock (early := false) (stmts_faithful (env plain)) hb (by decide +kernel) ht h1 w'
      rw [hk] at this
      exact this

/-! ## The hypotheses can be met -/

theorem toOption_some {α : Type} {x : M α} {a : α} (h : x.toOption = some a) : x = .ok a := by
  cases x with
  | ok b => injection h with h; rw [h]
  | error e => cases h

open Example in
/-- "a", Enter, and a resize to 40 between the two: a schedule, statement by statement, that ends
with the result "a". -/
example : ∃ g : G (stmts (env plain)),
    Steps (stmts (env plain)) true false (G.init _ (env plain) { input := keys ["a", "\r"] }) g ∧
      g.log = [.key (b "a"), .resize 40, .key (b "\r")] ∧
      g.ed = .returned (.ok { text := b "a", err := .nil }) := by
  obtain ⟨E, hE⟩ : ∃ E, E = env plain := ⟨_, rfl⟩
  have hF := stmts_faithful E
  have h : (do
      let s1 ← startSt (env plain) { input := keys ["a", "\r"] }
      let a ← lockedPart (env plain) (b "a") { s1.emit .await with input := keys ["\r"] }
      let s3 ← onResize (env plain) a.1 40
      let c ← lockedPart (env plain) (b "\r") { s3.emit .await with input := [] }
      return (a.2, s3.input, c.2) : M (Option RLRes × List Ev × Option RLRes)).toOption =
      some (none, keys ["\r"], some { text := b "a", err := .nil }) := by decide +kernel
  rw [← hE] at h ⊢
  have h' := toOption_some h
  obtain ⟨s1, h1, h2⟩ := bind_ok.mp h'
  obtain ⟨⟨s2, o2⟩, h3, h4⟩ := bind_ok.mp h2
  obtain ⟨s3, h5, h6⟩ := bind_ok.mp h4
  obtain ⟨⟨s4, o4⟩, h7, h8⟩ := bind_ok.mp h6
  injection h8 with h8
  obtain ⟨h9, h10⟩ := Prod.ext_iff.mp h8
  obtain ⟨h11, h12⟩ := Prod.ext_iff.mp h10
  dsimp only at h9 h11 h12
  subst h9 h12
  exact ⟨_, (((follow_start hF h1).trans (do_key hF (startSt_input h1) h3)).trans (do_resize hF h5)).trans
    (do_end hF h11 h7), rfl, rfl⟩

end Readline
