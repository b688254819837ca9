import Verif.Proof.VisSession
import Verif.Spec.Example
/-!
# Checking a concrete session

`steadyCheck` runs a session and decides the assumptions of the session theorems on the row
(`Steady`); this is only used for the examples.
-/
namespace Readline
open Spec Example

variable {E : Env} {s s' : St} {w : World}

theorem reachable_after (hb : BuiltinKeys E) (h : Reachable E w s) :
    ∃ n, n + s.input.length ≤ w.input.length ∧ after E w n = .ok s := by
  induction h with
  | start h => exact ⟨0, by rw [startSt_input h]; omega, h⟩
  | @step s s' h hst ih =>
    obtain ⟨n, h1, h2⟩ := ih
    have := step_input hb hst
    refine ⟨n + 1, by omega, ?_⟩
    show (do
      let s ← after E w n
      let (s, _) ← step E s
      return s) = _
    rw [h2]
    show (do
      let (s, _) ← step E s
      return s) = _
    rw [hst]
    rfl

def fineCheck (E : Env) (k : Int) (s : St) : Bool :=
  s.mojis.all (fun m => !(match m with | .tab _ => true | _ => false)) && decide (0 < s.viewWidth) &&
  s.mojis.all (fun m => decide (m.width E.cfg < s.viewWidth ∧ k ≤ m.width E.cfg ∧ m.width E.cfg ≤ 2 * k))

theorem fineCheck_ok {k : Int} (h : fineCheck E k s = true) : Fine E s := by
  unfold fineCheck at h
  simp only [Bool.and_eq_true, List.all_eq_true, decide_eq_true_eq] at h
  obtain ⟨⟨h1, h2⟩, h3⟩ := h
  refine ⟨fun p hp => ?_, h2, fun m hm => (h3 m hm).1, k, fun m hm => (h3 m hm).2⟩
  have := h1 _ hp
  simp at this

def swapCheck (E : Env) (s : St) (k : Bytes) : Bool :=
  match lookupCommand E k with
  | .swapChar =>
    match s.mojis with
    | [] => true
    | m :: ms => ms.all fun m' => decide (m'.width E.cfg = m.width E.cfg)
  | _ => true

theorem swapCheck_ok {k : Bytes} (h : swapCheck E s k = true) (hc : lookupCommand E k = .swapChar) : SameWidths E s := by
  unfold swapCheck at h
  rw [hc] at h
  dsimp only at h
  split at h
  · rename_i e; exact ⟨0, fun m hm => by rw [e] at hm; cases hm⟩
  · rename_i m ms e
    refine ⟨m.width E.cfg, fun m' hm => ?_⟩
    rw [e] at hm
    rw [List.all_eq_true] at h
    rcases List.mem_cons.mp hm with rfl | hm
    · rfl
    · exact of_decide_eq_true (h m' hm)

def noErr : Ev → Bool
  | .err _ => false
  | _ => true

/-- One state of a session. -/
def stateCheck (E : Env) (k : Int) (s : St) : Bool :=
  fineCheck E k s &&
  match s.input with
  | .key key :: _ =>
    swapCheck E s key && (match step E s with
      | .ok (s', none) => decide (s'.topColumn ≤ s.topColumn)
      | _ => true)
  | _ => true

/-- All states of a session. -/
def steadyCheck (E : Env) (k : Int) (w : World) : Bool :=
  w.input.dropLast.all noErr &&
  (List.range (w.input.length + 1)).all fun n =>
    match after E w n with
    | .ok s => stateCheck E k s
    | .error _ => true

theorem steadyCheck_ok {k : Int} (hb : BuiltinKeys E) (h : steadyCheck E k w = true) : Steady E w := by
  unfold steadyCheck at h
  rw [Bool.and_eq_true, List.all_eq_true, List.all_eq_true] at h
  obtain ⟨h1, h2⟩ := h
  have hs : ∀ s, Reachable E w s → stateCheck E k s = true := by
    intro s hr
    obtain ⟨n, hn, e⟩ := reachable_after hb hr
    have := h2 n (List.mem_range.mpr (by omega))
    rw [e] at this
    exact this
  refine ⟨fun s hr => ?_, fun e he => ?_, fun s s' key rest hr hst hi => ?_, fun s key rest hr hi hc => ?_⟩
  · have := hs s hr
    unfold stateCheck at this
    rw [Bool.and_eq_true] at this
    exact fineCheck_ok this.1
  · exact absurd (h1 _ he) (by simp [noErr])
  · have := hs s hr
    unfold stateCheck at this
    rw [hi] at this
    dsimp only at this
    rw [hst] at this
    rw [Bool.and_eq_true, Bool.and_eq_true] at this
    exact of_decide_eq_true this.2.2
  · have := hs s hr
    unfold stateCheck at this
    rw [hi] at this
    dsimp only at this
    rw [Bool.and_eq_true, Bool.and_eq_true] at this
    exact swapCheck_ok this.2.1 hc

/-- The state a session waits in after `n` events, if it gets there. -/
def reach (E : Env) (w : World) : Nat → Option St
  | 0 => match startSt E w with
    | .ok s => some s
    | .error _ => none
  | n + 1 => match reach E w n with
    | none => none
    | some s => match step E s with
      | .ok (s', none) => some s'
      | _ => none

theorem reach_ok {n : Nat} (h : reach E w n = some s) : Reachable E w s := by
  induction n generalizing s with
  | zero =>
    unfold reach at h
    split at h
    · cases h; exact .start (by assumption)
    · cases h
  | succ n ih =>
    unfold reach at h
    split at h
    · cases h
    · rename_i s0 h0
      split at h
      · cases h; exact .step (ih h0) (by assumption)
      · cases h

/-- The session gets to a state with some property. -/
def gets (E : Env) (w : World) (n : Nat) (p : St → Bool) : Bool :=
  match reach E w n with
  | some s => p s
  | none => false

theorem gets_ok {n : Nat} {p : St → Bool} (h : gets E w n p = true) :
    ∃ s, Reachable E w s ∧ p s = true := by
  unfold gets at h
  split at h
  · exact ⟨_, reach_ok (by assumption), h⟩
  · cases h

/-- Literal output that does not touch the row. -/
def mute : Bytes → Row → Row := fun _ r => r

theorem lenEscapedLoop_ge (c : Nat) (w : Int) : w ≤ lenEscapedLoop c w := by
  fun_induction lenEscapedLoop c w with
  | case1 c w h ih => omega
  | case2 c w h => omega

theorem width_nonneg {C : Cfg} (h1 : ∀ r, 0 ≤ C.width r) (h2 : ∀ a b, 0 ≤ a → 0 ≤ b → 0 ≤ C.zwjWidth a b) :
    ∀ m : Moji, 0 ≤ m.width C := by
  intro m
  induction m with
  | tab p =>
    show 0 ≤ 4 - Int.tmod p 4
    have := Int.tmod_lt_of_pos p (show (0 : Int) < 4 by decide)
    omega
  | raw r => exact h1 r
  | esc r =>
    have := lenEscapedLoop_ge r 3
    show 0 ≤ lenEscapedLoop r 3
    omega
  | ri r => show (0 : Int) ≤ 2; decide
  | ctrl r => show (0 : Int) ≤ 2; decide
  | flag r => show (0 : Int) ≤ 2; decide
  | zwj a b ha hb => exact h2 _ _ ha hb
  | modi a b ha hb => show 0 ≤ a.width C + b.width C; omega
  | vari a b ha hb =>
    cases a <;> first
      | (show (0 : Int) ≤ 2; decide)
      | (simp only [Moji.width] at ha ⊢; omega)

theorem mute_sane (h1 : ∀ r, 0 ≤ E.cfg.width r) (h2 : ∀ a b, 0 ≤ a → 0 ≤ b → 0 ≤ E.cfg.zwjWidth a b) :
    Sane E mute :=
  ⟨width_nonneg h1 h2, fun _ => rfl, fun _ => rfl, fun _ => rfl, fun _ => rfl, fun _ _ => rfl⟩

theorem plain_widths : (∀ r, 0 ≤ plain.width r) ∧ ∀ a b, 0 ≤ a → 0 ≤ b → 0 ≤ plain.zwjWidth a b := by
  refine ⟨fun r => ?_, fun a b ha hb => ?_⟩
  · show 0 ≤ (if r < 0x1100 then (1 : Int) else 2)
    split <;> decide
  · show 0 ≤ defaultZwjWidth a b
    unfold defaultZwjWidth; omega

end Readline
