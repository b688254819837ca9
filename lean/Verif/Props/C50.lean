import Verif.Proof.Ahead
import Verif.Props.C01
/-!
# C50: ReadLine reads no further than it has to

What is typed ahead of a call, or after the key that ends it, is not lost and has no influence on
the call: neither on the result nor on anything shown, nor on the fields of the `Editor`, the history
or the clipboard.

The test for "does not read" is one further event `x`, not a resize, at the end of the input, which
is still there after the call.  `C50`: then anything else could have come instead of `x`, and it would
still be there, and nothing else would be different.  `C50_reads`: if nothing but `x` is left, the call
reads precisely the events before `x`.  `C50_unique`: how far a call reads is determined by what it reads.

For all the built-in commands and all completion commands (commands written by the user of the
library may call `GetKey` as often as they like).
-/
namespace Readline
open Spec

variable {E : Env} {w : World}

/-- A call of `ReadLine` in the world `w` reads the events `evs`, nothing else, returns `r` and
leaves `c` in the field `Cursor`: whatever else comes after `evs` stays unread and makes no
difference. -/
def Spec.Reads (E : Env) (w : World) (evs : List Ev) (r : RLRes) (c : Int) : Prop :=
  ∀ extra, ∃ s, readLine E { w with input := evs ++ extra } = .ok (s, r) ∧ s.input = extra ∧
    s.cursor = c

/-- The states after a call agree in everything but the events still to come. -/
structure Spec.SameButInput (s t : St) : Prop where
  buffer : t.buf = s.buf
  cursor : t.cursor = s.cursor
  suffix : t.suffix = s.suffix
  viewStart : t.viewStart = s.viewStart
  termWidth : t.termWidth = s.termWidth
  topColumn : t.topColumn = s.topColumn
  histPtr : t.histPtr = s.histPtr
  undoes : t.undoes = s.undoes
  pending : t.pending = s.pending
  modHist : t.modHist = s.modHist
  clip : t.clip = s.clip
  out : t.out = s.out

theorem C50 (hb : BuiltinKeys E) {I : List Ev} {x : Ev} {s : St} {r : RLRes}
    (h : readLine E { w with input := I ++ [x] } = .ok (s, r)) (hx : noResize [x] = [x])
    (hn : noResize s.input ≠ []) :
    ∃ left, s.input = left ++ [x] ∧ ∀ extra, ∃ t, readLine E { w with input := I ++ extra } = .ok (t, r) ∧
      t.input = left ++ extra ∧ SameButInput s t := by
  have hx : Ev.isKey x = true := by cases x <;> first | rfl | cases hx
  obtain ⟨I', h1, h2⟩ := readLine_ahead hb hx h hn
  exact ⟨I', h1, fun C => ⟨_, h2 C, rfl, rfl, rfl, rfl, rfl, rfl, rfl, rfl, rfl, rfl, rfl, rfl, rfl⟩⟩

theorem C50_reads (hb : BuiltinKeys E) {I : List Ev} {x : Ev} {s : St} {r : RLRes}
    (h : readLine E { w with input := I ++ [x] } = .ok (s, r)) (hx : noResize [x] = [x])
    (hs : s.input = [x]) : Reads E w I r s.cursor := by
  obtain ⟨left, h1, h2⟩ := C50 hb h hx (by rw [hs, hx]; simp)
  have hl : left = [] := by
    rw [hs] at h1
    have := congrArg List.length h1
    simpa using this
  subst hl
  intro extra
  obtain ⟨t, g1, g2, g3⟩ := h2 extra
  exact ⟨t, g1, g2, g3.cursor⟩

/-- Two calls that start in the same way and read from the same events read equally many and have the
same result. -/
theorem C50_unique {evs evs' e e' : List Ev} {r r' : RLRes} {c c' : Int} (h : Reads E w evs r c)
    (h' : Reads E w evs' r' c') (he : evs ++ e = evs' ++ e') : evs = evs' ∧ r = r' ∧ c = c' := by
  obtain ⟨s, h1, h2, h3⟩ := h e
  obtain ⟨s', g1, g2, g3⟩ := h' e'
  rw [he, g1] at h1
  injection h1 with h1
  obtain ⟨rfl, rfl⟩ := Prod.mk.inj h1
  refine ⟨?_, rfl, h3.symm.trans g3⟩
  rw [h2] at g2
  subst g2
  exact List.append_cancel_right he

/-! ## Cases -/

/-- `Reads` from one evaluation. -/
theorem reads_of_run (hb : BuiltinKeys E) (I : List Ev) (x : Ev) (r : RLRes) (c : Int)
    (hx : noResize [x] = [x])
    (h : (match readLine E { w with input := I ++ [x] } with
      | .ok (s, r') => decide (r' = r ∧ s.input = [x] ∧ s.cursor = c)
      | .error _ => false) = true) : Reads E w I r c := by
  cases hr : readLine E { w with input := I ++ [x] } with
  | error e => rw [hr] at h; cases h
  | ok q =>
    obtain ⟨s, r'⟩ := q
    rw [hr] at h
    obtain ⟨rfl, h2, h3⟩ := of_decide_eq_true h
    rw [← h3]
    exact C50_reads hb hr hx h2

/-- `a`, Enter. -/
theorem reads_a : Reads (Example.env Example.plain) {} [.key [0x61], .key [0x0D]] ⟨[0x61], .nil⟩ 1 :=
  reads_of_run (defaultKeys_builtin _) _ (.key [0x62]) _ _ rfl (by decide +kernel)

/-- The same when the field `Cursor` is 1. -/
theorem reads_a' :
    Reads (Example.env Example.plain) { cursor := 1 } [.key [0x61], .key [0x0D]] ⟨[0x61], .nil⟩ 1 :=
  reads_of_run (defaultKeys_builtin _) _ (.key [0x62]) _ _ rfl (by decide +kernel)

/-- A search (Ctrl-R, `a`, Enter, without a history) reads its keys itself, and no more. -/
theorem reads_search : Reads (Example.env Example.plain) {}
    [.key [0x12], .key [0x61], .resize 40, .key [0x0D], .key [0x0D]] ⟨[], .nil⟩ 0 :=
  reads_of_run (defaultKeys_builtin _) _ (.key [0x62]) _ _ rfl (by decide +kernel)

/-- When a key is left over behind the end: what is left is a resize and a key. -/
example : (match readLine (Example.env Example.plain) { input := [.key [0x0D], .resize 40, .key [0x62]] } with
    | .ok (s, _) => s.input == [.resize 40, .key [0x62]] && noResize s.input != []
    | .error _ => false) = true := by decide +kernel

end Readline
