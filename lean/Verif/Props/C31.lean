import Verif.Props.C30
/-!
# C31: tty10.Close stops the watcher

The goroutine that `Open` of tty10 starts and the deferred `Close` of `ReadLine` (`joins`), in every
interleaving, with any code for the start, the commands and the callback.

* `C31_told`: when `Close` has returned, the watcher has been told to stop, is in no callback, and
  in no continuation does it call back.
* `C31_close_partial`: when the editing has ended with a result, `Close` does not wait for ever:
  whatever the watcher is doing, it can finish its callback and take the value from the channel;
  and the only states in which `Close` itself cannot go on are those in which the watcher can.
* `C31_refuted`: after a panic in a command the mutex is still locked, and `Close` can wait for ever.
* `C31_refuted_twice`: a second `Close` panics.

Not covered: a `Close` from a user's program outside `ReadLine`, and two `Open`s on one `Tty`.
-/
namespace Readline
open Spec

/-- **C31**, told: `Close` has returned in `g`; `g'` is any later state. -/
theorem C31_told {K : Code} {early : Bool} {E : Env} {w : World} {g g' : G K} {r : Except PanicKind RLRes}
    (h : Steps K true early (G.init K E w) g) (hr : g.ed = .returned r) (h' : Steps K true early g g') :
    (g'.wa = .stopping ∨ g'.wa = .stopped) ∧ ¬ WaInside g' ∧ g'.log = g.log ∧ g'.mem = g.mem ∧ g'.ed = g.ed := by
  have key : ∀ g', Steps K true early g g' → g'.log = g.log ∧ g'.mem = g.mem ∧ g'.ed = g.ed := by
    intro g' h'
    induction h' with
    | refl => exact ⟨rfl, rfl, rfl⟩
    | @step g1 g2 h1 _ h2 ih =>
      have ht := told_steps (h.trans h1) (ih.2.2.trans hr)
      have he : g1.ed = .returned r := ih.2.2.trans hr
      cases h2 with
      | stop => exact ih
      | chanClosed hj => cases hj
      | tick w' _ hw => rw [hw] at ht; rcases ht with ht | ht <;> cases ht
      | watchLock hw => rw [hw] at ht; rcases ht with ht | ht <;> cases ht
      | watchMore hw => rw [hw] at ht; rcases ht with ht | ht <;> cases ht
      | watchDone hw => rw [hw] at ht; rcases ht with ht | ht <;> cases ht
      | watchFail hw => rw [hw] at ht; rcases ht with ht | ht <;> cases ht
      | watchUnlock hw => rw [hw] at ht; rcases ht with ht | ht <;> cases ht
      | _ => simp_all
  obtain ⟨h1, h2, h3⟩ := key g' h'
  have ht := told_steps (h.trans h') (h3.trans hr)
  refine ⟨ht, ?_, h1, h2, h3⟩
  rintro (⟨r', hi⟩ | hi) <;> rw [hi] at ht <;> rcases ht with ht | ht <;> cases ht

/-- **C31**, `Close` returns: the editing has ended with a result.  A callback that panics is the
other outcome; it ends the program. -/
theorem C31_close_partial {K : Code} {E : Env} {w : World} {g : G K} {r : RLRes}
    (hF : Faithful E K) (hE : OutBlindKeys E) (h : Steps K true false (G.init K E w) g)
    (hr : g.ed = .closing (.ok r)) :
    (∃ g', Steps K true false g g' ∧ ((∃ k, g'.wa = .crashed k) ∨ g'.ed = .returned (.ok r))) ∧
    -- nobody else holds the mutex, so the watcher is stopped by nothing
    g.lock ≠ some .editor ∧
    -- and while `Close` cannot go on the watcher can
    ((∀ g', Step K true false g g' → g'.ed = g.ed) → (∀ k, g.wa ≠ .crashed k) →
      ∃ g', Step K true false g g') := by
  have hx := excl_steps excl_init h
  have hh := held_steps h
  have hi := inv_steps hF hE h
  have hl : g.lock ≠ some .editor := by
    intro hl
    rcases hh.editor hl with ⟨l, h1⟩ | ⟨o, h1⟩ | h1
    · rw [h1] at hr; cases hr
    · rw [h1] at hr; cases hr
    · rw [hr] at h1; cases h1
  refine ⟨settled_close hF hE hr h, hl, fun _ hc => ?_⟩
  cases hw : g.wa with
  | select => exact ⟨_, .closeJoin rfl hr hw⟩
  | locking w' =>
    have : g.lock = none := by
      cases hk : g.lock with
      | none => rfl
      | some who =>
        cases who with
        | editor => exact absurd hk hl
        | watcher => rcases hh.watcher hk with ⟨r', h1⟩ | h1 | ⟨k, h1⟩ <;> rw [h1] at hw <;> cases hw
    exact ⟨_, .watchLock hw this⟩
  | running r' =>
    unfold Inv at hi
    rw [hr, InvAt.main (by trivial)] at hi
    obtain ⟨y, hy⟩ := hi.back hF hw
    cases hy with
    | more h1 => exact ⟨_, .watchMore hw h1⟩
    | done h1 => exact ⟨_, .watchDone hw h1⟩
    | fail h1 => exact ⟨_, .watchFail hw h1⟩
  | unlocking => exact ⟨_, .watchUnlock hw⟩
  | stopping => obtain ⟨r', h1⟩ := hh.told rfl (.inl hw); rw [h1] at hr; cases hr
  | stopped => obtain ⟨r', h1⟩ := hh.told rfl (.inr hw); rw [h1] at hr; cases hr
  | crashed k => exact absurd hw (hc k)

open Example in
/-- "a", "b", Ctrl-T, Ctrl-Z: the command panics, `Close` is called with the mutex locked, and
waits for ever for a watcher that waits for the mutex. -/
theorem C31_refuted (w' : Int) :
    ∃ g : G (stmts (env plain)), Steps (stmts (env plain)) true false
        (G.init _ (env plain) { input := keys ["a", "b", "\x14", "\x1a"] }) g ∧
      g.ed = .closing (.error .bounds) ∧ ∀ g', ¬ Step (stmts (env plain)) true false g g' := by
  obtain ⟨g, h1, h2, -, h3⟩ := C30_refuted_swap w'
  exact ⟨g, h1, h2, h3⟩

/-! ## A second `Close` -/

/-- The field `done` of the Tty, tty10/main.go:12. -/
inductive Done where
  | nil | open | closed
deriving DecidableEq, Repr

/-- tty10/main.go:80-83 with a watcher that takes the value: sending on a closed channel panics. -/
def tty10Close : Done → Option Done
  | .nil => some .nil
  | .open => some .closed
  | .closed => none

/-- `Open` makes a new channel, tty10/main.go:26. -/
def tty10Open (_ : Done) : Done := .open

/-- Calls of `Open` (true) and `Close` (false), one after the other; `none` is a panic. -/
def tty10Calls : List Bool → Done → Option Done
  | [], d => some d
  | true :: l, d => tty10Calls l (tty10Open d)
  | false :: l, d => (tty10Close d).bind (tty10Calls l)

theorem tty10Calls_open (l : List Bool) :
    (tty10Calls l .open = none ↔ ∃ a b, l = a ++ false :: false :: b) ∧
    (tty10Calls l .closed = none ↔ (∃ b, l = false :: b) ∨ ∃ a b, l = a ++ false :: false :: b) := by
  induction l with
  | nil => simp [tty10Calls]
  | cons x l ih =>
    cases x with
    | true =>
      have h1 : (∃ a b, true :: l = a ++ false :: false :: b) ↔ ∃ a b, l = a ++ false :: false :: b := by
        constructor
        · rintro ⟨a, b, h⟩
          cases a with
          | nil => cases h
          | cons y a => injection h with _ h; exact ⟨a, b, h⟩
        · rintro ⟨a, b, h⟩
          exact ⟨true :: a, b, by rw [h]; rfl⟩
      refine ⟨ih.1.trans h1.symm, ih.1.trans (h1.symm.trans ⟨Or.inr, ?_⟩)⟩
      rintro (⟨b, h⟩ | h)
      · cases h
      · exact h
    | false =>
      refine ⟨?_, ⟨fun _ => .inl ⟨l, rfl⟩, fun _ => rfl⟩⟩
      refine ih.2.trans ⟨?_, ?_⟩
      · rintro (⟨b, rfl⟩ | ⟨a, b, rfl⟩)
        · exact ⟨[], b, rfl⟩
        · exact ⟨false :: a, b, rfl⟩
      · rintro ⟨a, b, h⟩
        cases a with
        | nil => injection h with _ h; exact .inl ⟨b, h⟩
        | cons y a => injection h with _ h; exact .inr ⟨a, b, h⟩

/-- **A second `Close`**: calls of `Open` (true) and `Close` (false) on a new `Tty` panic exactly
if there are two `Close`s in a row after an `Open`.  `ReadLine` makes one `Close` for every `Open`. -/
theorem C31_refuted_twice (l : List Bool) :
    tty10Calls l .nil = none ↔ ∃ a b, l = a ++ false :: false :: b ∧ true ∈ a := by
  induction l with
  | nil => simp [tty10Calls]
  | cons x l ih =>
    cases x with
    | true =>
      refine (tty10Calls_open l).1.trans ⟨?_, ?_⟩
      · rintro ⟨a, b, rfl⟩
        exact ⟨true :: a, b, rfl, List.mem_cons_self⟩
      · rintro ⟨a, b, h, -⟩
        cases a with
        | nil => cases h
        | cons y a => injection h with _ h; exact ⟨a, b, h⟩
    | false =>
      refine ih.trans ⟨?_, ?_⟩
      · rintro ⟨a, b, rfl, h⟩
        exact ⟨false :: a, b, rfl, List.mem_cons_of_mem _ h⟩
      · rintro ⟨a, b, h, hm⟩
        cases a with
        | nil => cases hm
        | cons y a =>
          injection h with h1 h
          subst h1
          exact ⟨a, b, h, by simpa using hm⟩

example : tty10Calls [true, false, true, false] .nil = some .closed := rfl
example : tty10Calls [true, false, false] .nil = none := rfl

/-- `C31_told` and `C31_close_partial` are about states that exist: the schedule of C30's example. -/
example : ∃ g : G (stmts (Example.env Example.plain)),
    Steps (stmts (Example.env Example.plain)) true false
      (G.init _ (Example.env Example.plain) { input := Example.keys ["\r"] }) g ∧
      g.ed = .returned (.ok { text := [], err := .nil }) := by
  obtain ⟨E, hE⟩ : ∃ E, E = Example.env Example.plain := ⟨_, rfl⟩
  have h : (do
      let s1 ← startSt (Example.env Example.plain) { input := Example.keys ["\r"] }
      let c ← lockedPart (Example.env Example.plain) (b "\r") { s1.emit .await with input := [] }
      return c.2 : M (Option RLRes)).toOption = some (some { text := [], err := .nil }) := by decide +kernel
  rw [← hE] at h ⊢
  obtain ⟨s1, h1, h2⟩ := bind_ok.mp (toOption_some h)
  obtain ⟨⟨s2, o2⟩, h3, h4⟩ := bind_ok.mp h2
  injection h4 with h4
  dsimp only at h4
  subst h4
  exact ⟨_, (follow_start (stmts_faithful E) h1).trans (do_end (stmts_faithful E) (startSt_input h1) h3), rfl⟩

end Readline
