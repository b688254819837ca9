import Verif.Proof.Waits
import Verif.Proof.Invariant
import Verif.Props.C01
/-!
# C39: the text cursor is visible whenever a key is awaited and when ReadLine returns

The output of a session is a list of tokens; `Tok.await` marks the places where the editor
flushes its output and waits for a key, `Tok.cursorOn` and `Tok.cursorOff` the two escape
sequences.  `Spec.visible` and `Spec.waitsSeen` (`Spec/Visible.lean`) follow them.

Not considered: bytes supplied by the caller and written as they are (`Tok.lit`: the prompt, the
line feed, the colours), and control characters in the line, which could contain the escape
sequence that hides the cursor.

A command that panics leaves the cursor hidden until the deferred function of `ReadLine` runs,
which writes the same two tokens (`deferred`).
-/
namespace Readline
open Spec

theorem deferred_last (s : St) : ∃ t, (deferred s).out = t ++ [.cursorOn, .flush] :=
  ⟨s.out, by simp [deferred, St.emit]⟩

/-- The result of a session is returned after showing the cursor. -/
theorem finish_last {E : Env} {s s' : St} {rc : Result} {r : RLRes}
    (h : finish E s rc = .ok (s', r)) : ∃ t, s'.out = t ++ [.cursorOn, .flush] := by
  unfold finish at h
  obtain ⟨s1, -, h⟩ := bind_ok.mp h
  simp only [pure_ok, Prod.mk.injEq] at h
  rw [← h.1]
  exact deferred_last _

theorem step_last {E : Env} {s s' : St} {r : RLRes} (h : step E s = .ok (s', some r)) :
    ∃ t, s'.out = t ++ [.cursorOn, .flush] := by
  unfold step at h
  split at h
  · simp only [pure_ok, Prod.mk.injEq] at h
    rw [← h.1]; exact deferred_last _
  · simp only [pure_ok, Prod.mk.injEq] at h
    rw [← h.1]; exact deferred_last _
  · obtain ⟨s1, -, h⟩ := bind_ok.mp h
    cases h
  · unfold execCmd at h
    dsimp only at h
    obtain ⟨⟨s1, rc⟩, -, h⟩ := bind_ok.mp h
    dsimp only at h
    split at h
    · cases h
    · obtain ⟨⟨s2, r2⟩, h2, h⟩ := bind_ok.mp h
      simp only [pure_ok, Prod.mk.injEq] at h
      rw [← h.1]
      exact finish_last h2

/-- **C39**: whether or not the cursor was visible before the call, it is visible at every wait
for a key and at the end, and the last thing written is the sequence that shows it. -/
theorem C39 {E : Env} {w : World} {s : St} {r : RLRes} (hb : BuiltinKeys E)
    (h : readLine E w = .ok (s, r)) (v : Bool) :
    ∃ t, s.out = w.out ++ t ∧ waitsSeen v t = true ∧ visible v t = true ∧
      ∃ t', t = t' ++ [.cursorOn, .flush] := by
  obtain ⟨u, hu, hst⟩ := readLine_reachable h
  have h1 := (reachable_says (BuiltinKeys.builtin hb) v hu).trans
    ((step_says (BuiltinKeys.builtin hb) u).ok hst)
  obtain ⟨⟨t, ht, hw, hv⟩, -⟩ := h1
  have ht : s.out = w.out ++ t := ht
  refine ⟨t, ht, hw, hv, ?_⟩
  -- what the last step wrote is not in `w.out`: something was written before it
  obtain ⟨⟨t1, e1, -, v1⟩, -⟩ := (step_says (BuiltinKeys.builtin hb) u).ok hst
  obtain ⟨⟨t0, e0, -, v0⟩, -⟩ := reachable_says (BuiltinKeys.builtin hb) false hu
  have e0 : u.out = w.out ++ t0 := e0
  obtain ⟨t2, e2⟩ := step_last hst
  have e1 : s.out = u.out ++ t1 := e1
  -- `t = t0 ++ t1`, and the step wrote at least the two tokens of the deferred function
  have et : t = t0 ++ t1 := by
    rw [ht, e0, List.append_assoc] at e1
    exact List.append_cancel_left e1
  have hlen : 2 ≤ t.length := by
    rcases Nat.lt_or_ge t.length 2 with hl | hl
    · exfalso
      cases t0 with
      | nil => exact absurd v0 (by decide)
      | cons a t0 =>
        have h3 : t1 = [] := by
          have := congrArg List.length et
          simp at this
          exact List.length_eq_zero_iff.mp (by omega)
        have h4 : t0 = [] := by
          have := congrArg List.length et
          simp at this
          exact List.length_eq_zero_iff.mp (by omega)
        subst h3 h4
        have h5 : (w.out ++ [a]) = t2 ++ [.cursorOn] ++ [.flush] := by
          rw [← e0, List.append_assoc]
          rw [List.append_nil] at e1
          rw [← e1]; exact e2
        have h6 := List.append_inj_right' h5 rfl
        simp at h6
        rw [h6] at v0
        exact absurd v0 (by decide)
    · exact hl
  have e3 : w.out ++ t = t2 ++ [.cursorOn, .flush] := by rw [← ht]; exact e2
  refine ⟨t.take (t.length - 2), ?_⟩
  have e4 : (w.out ++ t).drop (w.out.length + (t.length - 2)) = t.drop (t.length - 2) := by
    rw [← List.drop_drop, List.drop_left]
  have e5 : (w.out ++ t).drop (w.out.length + (t.length - 2)) = [.cursorOn, .flush] := by
    have hl : w.out.length + (t.length - 2) = t2.length := by
      have := congrArg List.length e3
      simp at this
      omega
    rw [e3, hl, List.drop_left]
  conv => lhs; rw [← List.take_append_drop (t.length - 2) t]
  rw [← e4, e5]

/-- The exits before the editing starts. -/
theorem C39_open {E : Env} {w : World} {o z : Option Bytes} {out : List Tok} {r : RLRes}
    (hb : BuiltinKeys E) (h : readLineFull E o z w = .ok (out, r)) (v : Bool) :
    ∃ t, out = w.out ++ t ++ [.cursorOn, .flush] ∧ waitsSeen v t = true := by
  unfold readLineFull at h
  cases o with
  | some e =>
    simp only [pure_ok, Prod.mk.injEq] at h
    exact ⟨[], by rw [← h.1]; simp, rfl⟩
  | none =>
    cases z with
    | some e =>
      simp only [pure_ok, Prod.mk.injEq] at h
      exact ⟨[], by rw [← h.1]; simp, rfl⟩
    | none =>
      dsimp only at h
      obtain ⟨⟨s, r'⟩, h1, h⟩ := bind_ok.mp h
      simp only [pure_ok, Prod.mk.injEq] at h
      obtain ⟨t, ht, hw, -, t', e⟩ := C39 hb h1 v
      refine ⟨t', ?_, ?_⟩
      · rw [← h.1, ht, e, List.append_assoc]
      · rw [e, waitsSeen_append] at hw
        exact (Bool.and_eq_true_iff.mp hw).1

/-- The same while the session is running: at every state in which the next event is awaited. -/
theorem C39_running {E : Env} {w : World} {s : St} (hb : BuiltinKeys E) (h : Reachable E w s)
    (v : Bool) : ∃ t, s.out = w.out ++ t ∧ waitsSeen v t = true ∧ visible v t = true :=
  (reachable_says (BuiltinKeys.builtin hb) v h).out

section
open Example

/-- Typing, a quoted insert and an incremental search that ends with a Tty error: the cursor was
hidden and shown several times. -/
example : (match readLine { env plain with history := [b "abc"] }
      { input := keys ["x", "\x11", "\x01", "\x12", "b"] } with
    | .ok (s, r) => decide (r.err = .tty [] ∧ s.out.countP (fun t => match t with | Tok.cursorOff => true | _ => false) = 5 ∧
        s.out.countP (fun t => match t with | Tok.await => true | _ => false) = 7 ∧
        waitsSeen false s.out = true)
    | .error _ => false) = true := by decide +kernel

/-- The specification is not trivially true. -/
example : waitsSeen true [.cursorOff, .lit [0x61], .await] = false := rfl
end

end Readline
