import Verif.Proof.AmpleSession
import Verif.Proof.Steady
/-!
# Checking a concrete session with tabs

`unscrolledCheck` runs a session and decides `Unscrolled`; only used for the examples.
-/
namespace Readline
open Spec Example

variable {E : Env} {s s' : St} {w : World}

def ampleCheck (E : Env) (s : St) : Bool :=
  decide (mostOf E.cfg s.mojis < s.viewWidth) &&
  match s.input with
  | .key key :: _ =>
    (match lookupCommand E key with
    | .swapChar => s.mojis.all (fun m => !(match m with | .tab _ => true | _ => false))
    | _ => true)
  | _ => true

def unscrolledCheck (E : Env) (w : World) : Bool :=
  w.input.dropLast.all noErr && decide (E.predictColor.1 = []) &&
  (List.range (w.input.length + 1)).all fun n =>
    match after E w n with
    | .ok s => ampleCheck E s
    | .error _ => true

theorem unscrolledCheck_ok (hb : BuiltinKeys E) (h : unscrolledCheck E w = true) : Unscrolled E w := by
  unfold unscrolledCheck at h
  rw [Bool.and_eq_true, Bool.and_eq_true, List.all_eq_true, List.all_eq_true] at h
  obtain ⟨⟨h1, h0⟩, h2⟩ := h
  have hs : ∀ s, Reachable E w s → ampleCheck E s = true := by
    intro s hr
    obtain ⟨n, hn, e⟩ := reachable_after hb hr
    have := h2 n (List.mem_range.mpr (by omega))
    rw [e] at this
    exact this
  refine ⟨fun s hr => ?_, of_decide_eq_true h0, fun e he => ?_, fun s key rest hr hi hc p hp => ?_⟩
  · have := hs s hr
    unfold ampleCheck at this
    rw [Bool.and_eq_true] at this
    have f := of_decide_eq_true this.1
    exact f
  · exact absurd (h1 _ he) (by simp [noErr])
  · have := hs s hr
    unfold ampleCheck at this
    rw [hi] at this
    dsimp only at this
    rw [hc] at this
    dsimp only at this
    rw [Bool.and_eq_true, List.all_eq_true] at this
    have := this.2 _ hp
    simp at this

end Readline
