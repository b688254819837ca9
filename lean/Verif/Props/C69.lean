import Verif.Model.Estate
import Verif.Props.C01
/-!
# C69: ReadLine gives back what it took, whichever way it is left

Calls on one editor with the default Tty; they may return, fail or panic, and the program goes on.

* `C69_files`: the terminals left open are exactly those whose `Size` failed in `Open`.
* `C69_mutex`: the mutex is locked only if a command has panicked.
* `C69_partial`: a call that finds the mutex unlocked and does not panic does what `readLine` says, leaves the mutex unlocked
  and its terminal closed; `C69_texts_partial`: conditions on texts, keys and terminal under which it is so.
* `C69_refuted_mutex`, `C69_hangs`: after a panic in a command the next call waits for ever at its first key.
* `C69_refuted_files`: `Open` leaves terminals open, one for each failure of `Size`.
-/
namespace Readline
open Spec

namespace Spec

/-- The calls whose `Open` got a terminal but not its size. -/
def halfOpened (cs : List (Env × Luck)) : List (Env × Luck) :=
  cs.filter (fun c => c.2.openErr.isNone && c.2.sizeErr.isSome)

/-- The first thing that is not a resize is a key. -/
inductive KeyNext : List Ev → Prop where
  | key {k rest} : KeyNext (.key k :: rest)
  | resize {n rest} : KeyNext rest → KeyNext (.resize n :: rest)

end Spec

theorem lockLoop_keeps {E : Env} {n : Nat} {R : Estate} {s : St} :
    (lockLoop E n R s).1 = { R with locked := (lockLoop E n R s).1.locked } := by
  induction n generalizing R s with
  | zero => rfl
  | succ n ih =>
    unfold lockLoop
    split
    · rfl
    · rfl
    · split
      · exact ih
      · split
        · rfl
        · next s' _ =>
          have := ih (R := { R with locked := false }) (s := s')
          rw [this]
    · split
      · rfl
      · split
        · rfl
        · next s' _ =>
          have := ih (R := { R with locked := false }) (s := s')
          rw [this]
        · rfl

theorem openedOn_keeps {E : Env} {l : Luck} {w : World} {R : Estate} :
    (openedOn E l w R).1 = { R with locked := (openedOn E l w R).1.locked } := by
  unfold openedOn
  split
  · rfl
  · split
    · rfl
    · exact lockLoop_keeps

/-- A call that ends. -/
theorem callOn_files {E : Env} {l : Luck} {w : World} {R : Estate} (hR : ∀ f ∈ R.files, f < R.count)
    (hf : (callOn E l w R).2.2.lives = true) :
    (callOn E l w R).1.files = R.files ++ (if l.openErr.isNone && l.sizeErr.isSome then [R.count] else []) ∧
    R.count ≤ (callOn E l w R).1.count ∧ (∀ f ∈ (callOn E l w R).1.files, f < (callOn E l w R).1.count) := by
  unfold callOn at hf ⊢
  cases ho : l.openErr with
  | some e =>
    simp only [Estate.open8, ho] at hf ⊢
    exact ⟨by simp, Nat.le_refl _, hR⟩
  | none =>
    cases hs : l.sizeErr with
    | some e =>
      simp only [Estate.open8, ho, hs] at hf ⊢
      refine ⟨by simp, by omega, ?_⟩
      intro f h
      rcases List.mem_append.mp h with h | h
      · have := hR f h; omega
      · cases List.mem_singleton.mp h; omega
    | none =>
      simp only [Estate.open8, ho, hs] at hf ⊢
      generalize hR1 : ({ R with files := R.files ++ [R.count], tty := some R.count, count := R.count + 1 } : Estate) = R1 at *
      have hk := openedOn_keeps (E := E) (l := l) (w := w) (R := R1)
      rw [if_pos hf, hk, ← hR1]
      simp only [Estate.close8]
      have e : (R.files ++ [R.count]).filter (fun x => decide (x ≠ R.count)) = R.files := by
        rw [List.filter_append]
        have : R.files.filter (fun x => decide (x ≠ R.count)) = R.files := by
          rw [List.filter_eq_self]
          intro f h
          have := hR f h
          simp; omega
        rw [this]; simp
      rw [e]
      exact ⟨by simp, by omega, fun f h => by have := hR f h; omega⟩

/-- **C69** for terminals: after any calls on a new editor, as many terminals are open as there were calls whose `Size` failed in
`Open`; every other terminal has been closed. -/
theorem C69_files {cs : List (Env × Luck)} {w : World} (h : ∀ f ∈ (callsOn cs w {}).2.2, f.lives = true) :
    (callsOn cs w {}).1.files.length = (halfOpened cs).length := by
  have gen : ∀ (cs : List (Env × Luck)) (w : World) (R : Estate), (∀ f ∈ R.files, f < R.count) →
      (∀ f ∈ (callsOn cs w R).2.2, f.lives = true) →
      (callsOn cs w R).1.files.length = R.files.length + (halfOpened cs).length := by
    intro cs
    induction cs with
    | nil => intro w R _ _; rfl
    | cons c cs ih =>
      intro w R hR h
      obtain ⟨E, l⟩ := c
      have hl : (callOn E l w R).2.2.lives = true := by
        rw [callsOn] at h
        by_cases hl : (callOn E l w R).2.2.lives = true
        · exact hl
        · simp only at h
          rw [if_neg hl] at h
          exact absurd (h _ (List.mem_singleton.mpr rfl)) hl
      obtain ⟨f1, f2, f3⟩ := callOn_files hR hl
      rw [callsOn] at h ⊢
      simp only [if_pos hl] at h ⊢
      rw [ih _ _ f3 (fun f hf => h f (List.mem_cons_of_mem _ hf)), f1]
      unfold halfOpened
      rw [List.filter_cons]
      by_cases hc : (l.openErr.isNone && l.sizeErr.isSome) = true
      · rw [if_pos hc, if_pos hc]; simp; omega
      · rw [if_neg hc, if_neg hc]; simp
  have := gen cs w {} (by simp) h
  simpa using this

/-- What a call does to the mutex. -/
theorem lockLoop_locked {E : Env} {n : Nat} {R : Estate} {s : St} (hl : R.locked = false) {r : RLRes}
    (h : (lockLoop E n R s).2.2 = .back r) : (lockLoop E n R s).1.locked = false := by
  induction n generalizing R s with
  | zero => cases h
  | succ n ih =>
    unfold lockLoop at h ⊢
    split at h
    · exact hl
    · exact hl
    · rw [if_neg (by rw [hl]; simp)] at h ⊢
      split at h
      · cases h
      · exact ih rfl h
    · rw [if_neg (by rw [hl]; simp)] at h ⊢
      split at h
      · cases h
      · exact ih rfl h
      · rfl

theorem callOn_locked {E : Env} {l : Luck} {w : World} {R : Estate} (hl : R.locked = false) {r : RLRes}
    (h : (callOn E l w R).2.2 = .back r) : (callOn E l w R).1.locked = false := by
  unfold callOn at h ⊢
  have h8 : (R.open8 l).1.locked = false := by
    unfold Estate.open8; split <;> exact hl
  split at h
  · next R' e heq => rw [heq] at h8; exact h8
  · next R' heq =>
    rw [heq] at h8
    simp only at h ⊢
    rw [if_pos (by rw [h]; rfl)]
    have hc : ∀ R : Estate, R.close8.locked = R.locked := by
      intro R; unfold Estate.close8; split <;> rfl
    rw [hc]
    unfold openedOn at h ⊢
    split at h
    · exact h8
    · split at h
      · cases h
      · exact lockLoop_locked h8 h

/-- **C69** for the mutex: it is unlocked after any calls none of which panicked, crashed or hung. -/
theorem C69_mutex {cs : List (Env × Luck)} {w : World} (h : ∀ f ∈ (callsOn cs w {}).2.2, ∃ r, f = .back r) :
    (callsOn cs w {}).1.locked = false := by
  have gen : ∀ (cs : List (Env × Luck)) (w : World) (R : Estate), R.locked = false →
      (∀ f ∈ (callsOn cs w R).2.2, ∃ r, f = .back r) → (callsOn cs w R).1.locked = false := by
    intro cs
    induction cs with
    | nil => intro w R hR _; exact hR
    | cons c cs ih =>
      intro w R hR h
      obtain ⟨E, l⟩ := c
      have hl : ∃ r, (callOn E l w R).2.2 = .back r := by
        rw [callsOn] at h
        simp only at h
        split at h
        · exact h _ (List.mem_cons_self ..)
        · exact h _ (List.mem_singleton.mpr rfl)
      obtain ⟨r, hr⟩ := hl
      rw [callsOn] at h ⊢
      simp only [if_pos (show (callOn E l w R).2.2.lives = true by rw [hr]; rfl)] at h ⊢
      exact ih _ _ (callOn_locked hR hr) (fun f hf => h f (List.mem_cons_of_mem _ hf))
  exact gen cs w {} rfl h

/-- With the mutex unlocked the loop is that of `readLine`. -/
theorem lockLoop_loop {E : Env} {n : Nat} {R : Estate} {s s' : St} {r : RLRes} (hl : R.locked = false)
    (h : loop E n s = .ok (s', r)) : lockLoop E n R s = (R, s'.world, .back r) := by
  have eR : ({ R with locked := false } : Estate) = R := by rw [← hl]
  induction n generalizing s with
  | zero => cases h
  | succ n ih =>
    rw [loop] at h
    obtain ⟨⟨u, o⟩, h1, h⟩ := bind_ok.mp h
    unfold lockLoop
    unfold step at h1
    cases hi : s.input with
    | nil =>
      rw [hi] at h1
      cases pure_ok.mp h1
      cases pure_ok.mp h
      simp only [deferred, World.leave, St.world, St.emit, List.append_assoc, hi]
      rfl
    | cons e rest =>
      rw [hi] at h1
      cases e with
      | err e =>
        cases pure_ok.mp h1
        cases pure_ok.mp h
        simp only [deferred, World.leave, St.world, St.emit, List.append_assoc]
        rfl
      | resize w =>
        obtain ⟨v, h2, h3⟩ := bind_ok.mp h1
        cases pure_ok.mp h3
        simp only [hl, Bool.false_eq_true, if_false, h2, eR]
        exact ih h
      | key k =>
        have h1 : execCmd E (lookupCommand E k) { s.emit .await with input := rest } = .ok (u, o) := h1
        simp only [hl, Bool.false_eq_true, if_false, h1, eR]
        cases o with
        | none => exact ih h
        | some r' => cases pure_ok.mp h; rfl

/-- **C69**, a call that does not panic: with the mutex unlocked and a terminal that works, `ReadLine` returns what `readLine` says;
afterwards the mutex is unlocked and the same terminals are open as before. -/
theorem C69_partial {E : Env} {l : Luck} {w : World} {R : Estate} {n : Int} {s : St} {r : RLRes}
    (hR : ∀ f ∈ R.files, f < R.count) (hl : R.locked = false) (h1 : l.openErr = none) (h2 : l.sizeErr = none) (h3 : l.width = .ok n)
    (h : readLine E { w with termWidth := n } = .ok (s, r)) :
    callOn E l w R = ({ R with tty := none, count := R.count + 1 }, s.world, .back r) := by
  obtain ⟨u, hu, h⟩ := bind_ok.mp h
  have e : (R.files ++ [R.count]).filter (fun x => decide (x ≠ R.count)) = R.files := by
    rw [List.filter_append]
    have : R.files.filter (fun x => decide (x ≠ R.count)) = R.files := by
      rw [List.filter_eq_self]
      intro f h
      have := hR f h
      simp; omega
    rw [this]; simp
  unfold callOn
  simp only [Estate.open8, h1, h2, openedOn, h3, hu]
  rw [lockLoop_loop (by exact hl) h]
  simp only [Fate.lives, if_true, Estate.close8, e]

/-- **C69** with conditions on texts, keys and terminal only: default keys and prompt, ordinary texts, no Ctrl-T. -/
theorem C69_texts_partial {E : Env} {l : Luck} {w : World} {R : Estate} {n : Int} (hR : ∀ f ∈ R.files, f < R.count)
    (hl : R.locked = false) (h1 : l.openErr = none) (h2 : l.sizeErr = none) (h3 : l.width = .ok n)
    (hk : E.keyMap = none) (hg : E.globalKeyMap = defaultGlobalKeyMap)
    (hq : E.predictor = none) (hc : E.clipSet = fun _ t => some t) (hp : E.prompt = none)
    (ht : ∀ t, t = E.default ∨ t ∈ E.history ∨ w.clip = some t ∨ FromKey E w t → Over (Plain E.cfg) t)
    (h22 : Plain E.cfg 0x22) (hs : .key [0x14] ∉ w.input) (hw : 7 < n) (hr : ∀ n, .resize n ∈ w.input → 7 < n)
    (hcur : 0 ≤ w.cursor) :
    ∃ r w', callOn E l w R = ({ R with tty := none, count := R.count + 1 }, w', .back r) := by
  obtain ⟨s, r, h⟩ := C01_texts_partial (E := E) (w := { w with termWidth := n }) hk hg hq hc hp ht h22 hs hw hr hcur
  exact ⟨r, s.world, C69_partial hR hl h1 h2 h3 h⟩

/-- **Refuted**, in general: with the mutex locked, a call whose first event is a key waits for ever. -/
theorem C69_hangs {E : Env} {l : Luck} {w : World} {R : Estate} {n : Int} {s : St} (hl : R.locked = true)
    (h1 : l.openErr = none) (h2 : l.sizeErr = none) (h3 : l.width = .ok n)
    (h : startSt E { w with termWidth := n } = .ok s) (hk : KeyNext w.input) : (callOn E l w R).2.2 = .hung := by
  unfold callOn
  simp only [Estate.open8, h1, h2, openedOn, h3, h]
  have hi := startSt_input h
  have hi : s.input = w.input := hi
  have gen : ∀ (i : List Ev), KeyNext i → ∀ (m : Nat) (R : Estate) (s : St), s.input = i → R.locked = true → i.length < m →
      (lockLoop E m R s).2.2 = .hung := by
    intro i hk
    induction hk with
    | key =>
      intro m R s hi hl hm
      obtain ⟨m, rfl⟩ : ∃ k, m = k + 1 := ⟨m - 1, by omega⟩
      unfold lockLoop
      simp only [hi, hl, if_true]
    | resize _ ih =>
      intro m R s hi hl hm
      obtain ⟨m, rfl⟩ : ∃ k, m = k + 1 := ⟨m - 1, by omega⟩
      unfold lockLoop
      simp only [hi, hl, if_true]
      exact ih m R _ rfl hl (by simp at hm; omega)
  exact gen w.input hk _ _ _ hi hl (by rw [hi]; omega)

namespace Example

/-- The fates of calls on a new editor, whether the mutex is locked, and how many terminals are open. -/
def leftovers (cs : List (Env × Luck)) (w : World) : List Fate × Bool × Nat :=
  let (R, _, fs) := callsOn cs w {}
  (fs, R.locked, R.files.length)

/-- Four calls: no terminal, no size, "hi" and Enter, "x" and Ctrl-C. -/
example : leftovers [(env plain, { openErr := some (b "ENXIO") }), (env plain, { width := .error (b "EIO") }), (env plain, {}), (env plain, {})]
      { input := keys ["h", "i", "\r", "x", "\x03"] } =
    ([.back ⟨[], .tty (b "ENXIO")⟩, .back ⟨[], .tty (b "EIO")⟩, .back ⟨b "hi", .nil⟩, .back ⟨[], .ctrlC⟩], false, 0) := by
  decide +kernel

end Example

open Example in
/-- **Refuted**: "a", "b", Ctrl-T, Ctrl-Z: `ReadLine` panics.  The program recovers and calls it again: at the first key it waits for ever,
with its terminal open. -/
theorem C69_refuted_mutex : ∃ (E : Env) (w : World), BuiltinKeys E ∧
    leftovers [(E, {}), (E, {})] w = ([.panicked .bounds, .hung], true, 1) :=
  ⟨env plain, { input := keys ["a", "b", "\x14", "\x1A", "c", "\r"] }, defaultKeys_builtin _, by decide +kernel⟩

/-- **Refuted**: the terminals that are open after `n` calls whose `Size` failed in `Open`. -/
theorem C69_refuted_files (E : Env) (e : Bytes) (w : World) (n : Nat) :
    (callsOn (List.replicate n (E, { sizeErr := some e })) w {}).1.files.length = n ∧
    ∀ f ∈ (callsOn (List.replicate n (E, { sizeErr := some e })) w {}).2.2, f = .back ⟨[], .tty e⟩ := by
  have all : ∀ (n : Nat) (w : World) (R : Estate), ∀ f ∈ (callsOn (List.replicate n (E, { sizeErr := some e })) w R).2.2,
      f = .back ⟨[], .tty e⟩ := by
    intro n
    induction n with
    | zero => intro w R f h; cases h
    | succ n ih =>
      intro w R f h
      rw [List.replicate_succ, callsOn] at h
      simp only [callOn, Estate.open8, Fate.lives, if_true] at h
      rcases List.mem_cons.mp h with rfl | h
      · rfl
      · exact ih _ _ f h
  refine ⟨?_, all n w {}⟩
  rw [C69_files (fun f h => by rw [all n w {} f h]; rfl)]
  unfold halfOpened
  rw [List.filter_eq_self.mpr]
  · simp
  · intro c hc
    cases List.eq_of_mem_replicate hc
    rfl

end Readline
