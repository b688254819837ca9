import Verif.Proof.Late
import Verif.Props.C30
import Verif.Proof.Steady
/-!
# C75: a call of ReadLine is left alone by the calls before it

A program calls `ReadLine` any number of times; every call starts a goroutine that watches the window size and calls back into
its own call.  All goroutines in every interleaving, with the code cut into steps in any way.

* `C75_tty10`: with tty10, while a call runs the goroutines of the calls before it have been told to stop, hold no mutex and
  call back no more; the calls are the same as if each ran by itself.
* `C75_partial`: with the default Tty the goroutines of earlier calls may still call back, but line, cursor, undo log,
  history, clipboard and the keys taken are the same as if each call ran by itself, and so are the results; only the output
  differs.  `C75_result_partial`: so each result is one that `readLine` returns for the keys that were left.
* `C75_exclusive`: in every schedule of the program at most one goroutine, of whichever call, is in the mutex.
* `C75_refuted_written`: with the default Tty the line of a call that has returned is painted while the next line is edited.
* `C75_refuted_crash`: with the default Tty a callback of a call that has returned crashes the program as soon as the cursor
  of the line being edited is further right than the earlier line was long.
-/
namespace Readline
open Spec

/-- **C75**, tty10, all of it: any number of calls, any code, callbacks at any time.  A call begins only after the one before it
has returned a result. -/
theorem C75_tty10 {C : Cut} {early : Bool} {may : Env → Prop} {E : Env} {w : World} {p : Prog C}
    (h : ProgSteps C true early may (Prog.init C E w) p) :
    Alone C true early may E w p.results p.E p.g ∧ ∀ x ∈ p.late, PastIt x.pc := prog_alone h

/-- **C75**, the default Tty: `g` is the present call by itself. -/
theorem C75_partial {C : Cut} {joins early : Bool} {may : Env → Prop} {E : Env} {w : World} {p : Prog C}
    (hd : ∀ E, may E → Spec.Deaf C E) (hE : may E) (h : ProgSteps C joins early may (Prog.init C E w) p) :
    ∃ g : G (C.code p.E), Alone C joins early may E w p.results p.E g ∧
      g.ed = p.g.ed ∧ g.wa = p.g.wa ∧ g.log = p.g.log ∧ SameButOut g.mem p.g.mem := by
  obtain ⟨m, l, hs⟩ := sim_steps hd hE h
  exact ⟨_, hs.alone, rfl, rfl, rfl, hs.mem⟩

/-- **C75**, the results: `w'` is what the present call found in the editor. -/
theorem C75_result_partial {C : Cut} {joins : Bool} {may : Env → Prop} {E : Env} {w : World} {p : Prog C}
    (hd : ∀ E, may E → Spec.Deaf C E ∧ Spec.KeysOnly C E ∧ Faithful E (C.code E) ∧ BuiltinKeys E) (hE : may E)
    (hn : noResize w.input = w.input) (h : ProgSteps C joins false may (Prog.init C E w) p) {r : RLRes}
    (hr : p.g.ed = .returned (.ok r)) :
    ∃ w' w0 evs t, (p.results = [] → w' = w) ∧ noResize evs = w'.input ∧
      readLine p.E { w' with termWidth := w0, input := evs } = .ok (t, r) := by
  obtain ⟨m, l, hs⟩ := sim_steps (fun E h => (hd E h).1) hE h
  obtain ⟨w', h1, h2, h3, h4⟩ := hs.alone.found (fun E h => (hd E h).2.1) hE hn
  obtain ⟨-, -, hF, hb⟩ := hd _ h3
  obtain ⟨w0, evs, t, h5, h6⟩ := C30_result_partial hF hb h2 h4 hr
  exact ⟨w', w0, evs, t, h1, h5, h6⟩

/-- The goroutine is between `Lock` and `Unlock`. -/
def Spec.LateInside {R : Type} (x : Late R) : Prop := (∃ r, x.pc = .running r) ∨ x.pc = .unlocking

/-- **C75**, the mutex: two goroutines of earlier calls are never in it together, nor with one of the present call. -/
theorem C75_exclusive {C : Cut} {joins early : Bool} {may : Env → Prop} {E : Env} {w : World} {p : Prog C}
    (hd : ∀ E, may E → Spec.Deaf C E) (hE : may E) (h : ProgSteps C joins early may (Prog.init C E w) p)
    {a b : List (Late C.R)} {x : Late C.R} (hl : p.late = a ++ x :: b) (hx : Spec.LateInside x) :
    ¬ EdInside p.g ∧ ¬ WaInside p.g ∧ ∀ y ∈ a ++ b, ¬ Spec.LateInside y := by
  obtain ⟨m, l, hs⟩ := sim_steps hd hE h
  obtain ⟨w', hr⟩ := hs.alone.here
  have ex := excl_steps excl_init hr
  have inside : ∀ {y : Late C.R}, Spec.LateInside y → y.pc.within = true := by
    rintro y (⟨r, h⟩ | h) <;> rw [h] <;> rfl
  have hlock := hs.lock
  rw [hl, inMutex_at, inside hx, if_pos rfl] at hlock
  rcases hlock with ⟨h1, -⟩ | ⟨h1, h2, -⟩
  · omega
  refine ⟨?_, ?_, ?_⟩
  · rintro (⟨i, hi⟩ | ⟨o, ho⟩)
    · have := ex.ed i hi; rw [show l = some .editor from this] at h2; cases h2
    · have := ex.edUn o ho; rw [show l = some .editor from this] at h2; cases h2
  · rintro (⟨i, hi⟩ | ho)
    · have := ex.wa i hi; rw [show l = some .watcher from this] at h2; cases h2
    · have := ex.waUn ho; rw [show l = some .watcher from this] at h2; cases h2
  · intro y hy hi
    have h3 : inMutex (a ++ b) = 0 := by omega
    have h4 : y ∈ (a ++ b).filter (·.pc.within) := List.mem_filter.mpr ⟨hy, inside hi⟩
    unfold inMutex at h3
    rw [List.length_eq_zero_iff.mp h3] at h4
    cases h4

/-- The hypotheses on the code are met by the code cut at every statement. -/
theorem C75_statements {E : Env} (hb : BuiltinKeys E) :
    Spec.Deaf stmtCut E ∧ Spec.KeysOnly stmtCut E ∧ Faithful E (stmtCut.code E) ∧ BuiltinKeys E :=
  ⟨stmtCut_deaf (fun k f h => absurd h (hb k f)), stmtCut_keys hb, stmts_faithful E, hb⟩

/-! ## What the default Tty does not guarantee -/

/-- **Refuted**: a call with the result `r` ends while a signal of a new width is on its way (`s'` is its memory).  In the next
call, whenever it waits for keys (`t`), the goroutine of the first call can paint the line of `s'` in place of that of `t`: all
it writes, `u.out`, is in the output of the editor. -/
theorem C75_refuted_written {C : Cut} {early : Bool} {may : Env → Prop} {E E' : Env} (hF : Faithful E (C.code E))
    (hF' : Faithful E' (C.code E')) (hb : BuiltinKeys E) (hb' : BuiltinKeys E') (hm : may E') {w : World}
    (hn : noResize w.input = w.input) {s s' t u : St} {k : Bytes} {rest : List Ev} {r : RLRes} (hr : Reachable E w s)
    (hi : s.input = .key k :: rest) (hk : lockedPart E k { s.emit .await with input := rest } = .ok (s', some r))
    (ht : Reachable E' s'.world.leave t) (hn' : noResize s'.input = s'.input) {w' : Int}
    (hu : onResize E' (s'.lend t) w' = .ok u) :
    ∃ p : Prog C, ProgSteps C false early may (Prog.init C E w) p ∧ p.results = [r] ∧ ¬ p.crashed ∧
      p.g.ed = .idle ∧ p.g.mem = { t with out := u.out } := by
  obtain ⟨log, h1⟩ := follow_again (early := early) hF hF' hb hb' hm hn hr hi hk ht hn' w'
  have h2 := ProgSteps.one (joins := false) (early := early) (may := may)
    (Prog.fine (p := ({ E := E', g := { mem := t, ed := .idle, log := log }, late := [⟨s', .locking w'⟩], results := [r] } : Prog C))
      (a := []) (b := []) (x := ⟨s', .locking w'⟩) (fun _ => nofun) (fun y hy => by cases hy) (fun _ => nofun) rfl)
    (ProgStep.lock (a := []) (b := []) rfl rfl rfl)
  have h3 := hF'.back w' (s'.lend t)
  have h4 : resizePart E' w' (s'.lend t) = .ok (u, ()) := by unfold resizePart; rw [hu]; rfl
  rw [h4] at h3
  have h5 := (run_late (C := C) (joins := false) (early := early) (may := may) (E := E') (a := []) (b := []) (rs := [r]) (m := s')
    (g := { mem := t, ed := .idle, lock := some .watcher, log := log }) h3 (fun _ => nofun) (fun y hy => by cases hy) rfl).1 u rfl
  refine ⟨_, (h1.trans h2).trans h5, rfl, ?_, rfl, ?_⟩
  · exact Prog.fine (a := []) (b := []) (x := ⟨u, .unlocking⟩) (fun _ => nofun) (fun y hy => by cases hy) (fun _ => nofun) rfl
  · have hc : u.cursor = t.cursor := (C30_resize hu).2.2.1
    show t.lend u = _
    unfold St.lend
    rw [hc]

theorem onResize_beyond {E : Env} {s : St} (h : s.len < s.cursor) (w' : Int) : ∃ e, onResize E s w' = .error e := by
  cases hr : onResize E s w' with
  | error e => exact ⟨e, rfl⟩
  | ok u =>
    have key : ∀ v : St, v.len < v.cursor → ∀ u, repaint E v ≠ .ok u := by
      intro v hv u hu
      unfold repaint repaintNoSuffix at hu
      obtain ⟨⟨n, w⟩, h0, -⟩ := bind_ok.mp hu
      have h1 := (getView2_ok h0).2.2
      have h2 : (updateSuffix E v).cursor = v.cursor ∧ (updateSuffix E v).len = v.len := by
        unfold updateSuffix
        split
        · exact ⟨rfl, rfl⟩
        · split <;> exact ⟨rfl, rfl⟩
      omega
    unfold onResize repaintLastLine at hr
    dsimp only at hr
    split at hr
    · exact (key _ (by exact h) _ hr).elim
    · exact (key _ (by exact h) _ hr).elim

/-- **Refuted**: as before, but the cursor of the line being edited is further right than the earlier line was long: the
goroutine of the earlier call panics and ends the program.  (In Go the slice of the earlier line goes on up to its capacity;
the program crashes there or paints cells that were deleted long ago.) -/
theorem C75_refuted_crash {C : Cut} {early : Bool} {may : Env → Prop} {E E' : Env} (hF : Faithful E (C.code E))
    (hF' : Faithful E' (C.code E')) (hb : BuiltinKeys E) (hb' : BuiltinKeys E') (hm : may E') {w : World}
    (hn : noResize w.input = w.input) {s s' t : St} {k : Bytes} {rest : List Ev} {r : RLRes} (hr : Reachable E w s)
    (hi : s.input = .key k :: rest) (hk : lockedPart E k { s.emit .await with input := rest } = .ok (s', some r))
    (ht : Reachable E' s'.world.leave t) (hn' : noResize s'.input = s'.input) (hlt : s'.len < t.cursor) (w' : Int) :
    ∃ p : Prog C, ProgSteps C false early may (Prog.init C E w) p ∧ p.results = [r] ∧ p.crashed := by
  obtain ⟨log, h1⟩ := follow_again (early := early) hF hF' hb hb' hm hn hr hi hk ht hn' w'
  have h2 := ProgSteps.one (joins := false) (early := early) (may := may)
    (Prog.fine (p := ({ E := E', g := { mem := t, ed := .idle, log := log }, late := [⟨s', .locking w'⟩], results := [r] } : Prog C))
      (a := []) (b := []) (x := ⟨s', .locking w'⟩) (fun _ => nofun) (fun y hy => by cases hy) (fun _ => nofun) rfl)
    (ProgStep.lock (a := []) (b := []) rfl rfl rfl)
  obtain ⟨e, he⟩ := onResize_beyond (E := E') (s := s'.lend t) hlt w'
  have h3 := hF'.back w' (s'.lend t)
  have h4 : resizePart E' w' (s'.lend t) = .error e := by unfold resizePart; rw [he]; rfl
  rw [h4] at h3
  obtain ⟨p, h5, h6, h7⟩ := (run_late (C := C) (joins := false) (early := early) (may := may) (E := E') (a := []) (b := []) (rs := [r]) (m := s')
    (g := { mem := t, ed := .idle, lock := some .watcher, log := log }) h3 (fun _ => nofun) (fun y hy => by cases hy) rfl).2 e rfl
  exact ⟨p, (h1.trans h2).trans h5, h6, .inr ⟨_, h7, _, rfl⟩⟩

/-! ## The hypotheses can be met -/

/-- `n` keys, a key that ends the line, and `m` keys of the next line. -/
def between (E : Env) (w : World) (n m : Nat) (p : RLRes → St → St → Bool) : Bool :=
  match reach E w n with
  | none => false
  | some s => match s.input with
    | .key k :: rest => match lockedPart E k { s.emit .await with input := rest } with
      | .ok (s', some r) => match reach E s'.world.leave m with
        | some t => noResize s'.input == s'.input && p r s' t
        | none => false
      | _ => false
    | _ => false

theorem between_ok {n m : Nat} {p : RLRes → St → St → Bool} (h : between E w n m p = true) :
    ∃ s k rest s' r t, Reachable E w s ∧ s.input = .key k :: rest ∧
      lockedPart E k { s.emit .await with input := rest } = .ok (s', some r) ∧ Reachable E s'.world.leave t ∧
      noResize s'.input = s'.input ∧ p r s' t = true := by
  unfold between at h
  split at h
  · cases h
  rename_i s hs
  split at h
  · rename_i k rest hi
    split at h
    · rename_i s' r hk
      split at h
      · rename_i t ht
        rw [Bool.and_eq_true] at h
        exact ⟨s, k, rest, s', r, t, reach_ok hs, hi, hk, reach_ok ht, eq_of_beq h.1, h.2⟩
      · cases h
    · cases h
  · cases h

/-- The units painted after the first `n` tokens. -/
def paintedFrom (n : Nat) (out : List Tok) : List Moji := (out.drop n).filterMap fun
  | .glyph m => some m
  | _ => none

open Example in
/-- The first line is "ab", the second is "x" so far: then "ab" is painted in its place, and "a" again to bring the cursor
back. -/
example : ∃ p : Prog stmtCut, ProgSteps stmtCut false false (BuiltinKeys ·)
      (Prog.init stmtCut (env plain) { input := keys ["a", "b", "\r", "x"] }) p ∧ ¬ p.crashed ∧
    p.results = [{ text := b "ab", err := .nil }] ∧ p.g.ed = .idle ∧ p.g.mem.text = b "x" ∧
    ∃ n, paintedFrom n p.g.mem.out = [.raw 97, .raw 98, .raw 97] := by
  have h : between (env plain) { input := keys ["a", "b", "\r", "x"] } 2 1 (fun r s' t =>
      r == { text := b "ab", err := .nil } && t.text == b "x" && match onResize (env plain) (s'.lend t) 40 with
        | .ok u => paintedFrom t.out.length u.out == [.raw 97, .raw 98, .raw 97]
        | .error _ => false) = true := by decide +kernel
  obtain ⟨s, k, rest, s', r, t, h1, h2, h3, h4, h5, h6⟩ := between_ok h
  rw [Bool.and_eq_true, Bool.and_eq_true] at h6
  obtain ⟨⟨h6, h7⟩, h8⟩ := h6
  split at h8
  · rename_i u hu
    have hb := defaultKeys_builtin plain
    obtain ⟨p, p1, p2, p3, p4, p5⟩ := C75_refuted_written (C := stmtCut) (early := false) (may := (BuiltinKeys ·))
      (stmts_faithful _) (stmts_faithful _) hb hb hb (by decide +kernel) h1 h2 h3 h4 h5 hu
    refine ⟨p, p1, p3, by rw [p2, eq_of_beq h6], p4, ?_, t.out.length, ?_⟩
    · rw [p5]; exact eq_of_beq h7
    · rw [p5]; exact eq_of_beq h8
  · cases h8

open Example in
/-- The first line is "a", the second is "bcd" so far: a late callback crashes the program. -/
example : ∃ p : Prog stmtCut, ProgSteps stmtCut false false (BuiltinKeys ·)
      (Prog.init stmtCut (env plain) { input := keys ["a", "\r", "b", "c", "d"] }) p ∧
    p.results = [{ text := b "a", err := .nil }] ∧ p.crashed := by
  have h : between (env plain) { input := keys ["a", "\r", "b", "c", "d"] } 1 3 (fun r s' t =>
      r == { text := b "a", err := .nil } && decide (s'.len < t.cursor)) = true := by decide +kernel
  obtain ⟨s, k, rest, s', r, t, h1, h2, h3, h4, h5, h6⟩ := between_ok h
  rw [Bool.and_eq_true] at h6
  have hb := defaultKeys_builtin plain
  obtain ⟨p, p1, p2, p3⟩ := C75_refuted_crash (C := stmtCut) (early := false) (may := (BuiltinKeys ·))
    (stmts_faithful _) (stmts_faithful _) hb hb hb (by decide +kernel) h1 h2 h3 h4 h5 (of_decide_eq_true h6.2) 40
  exact ⟨p, p1, by rw [p2, eq_of_beq h6.1], p3⟩

/-- The conditions of the other theorems hold for programs whose bindings are to the built-in commands. -/
example : ∀ E, BuiltinKeys E →
    Spec.Deaf stmtCut E ∧ Spec.KeysOnly stmtCut E ∧ Faithful E (stmtCut.code E) ∧ BuiltinKeys E := fun _ => C75_statements

end Readline
