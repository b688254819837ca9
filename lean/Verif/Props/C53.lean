import Verif.Model.Term
/-!
# C53: the default Tty reports a width exactly when it changes

tty8.go: `Open` notes the width, and a goroutine gets a signal for each change of the window (also of
its height) and calls `onResize` if the width differs from the noted one.

`C53_known_partial`: after any number of signals, the width `ReadLine` knows is the one the last
signal told, if `ReadLine` found the width that `Open` had noted.
`C53_changes`: no call of `onResize` repeats the width known before.
`C53_calls`: the calls are some of the signalled widths, in order.
`C53_refuted`: a change between `Open` and the moment the signals are set up is not noticed by the
goroutine; if the window then goes back to its first width, `ReadLine` keeps the wrong one.
-/
namespace Readline

/-- The width the editor knows: what `Size` told `ReadLine` at first, then the last `onResize`. -/
def Spec.known (size : Int) (calls : List Int) : Int := calls.getLast?.getD size

open Spec

theorem watch8_append (last : Int) (a b : List Int) :
    watch8 last (a ++ b) = watch8 last a ++ watch8 (known last a) b := by
  induction a generalizing last with
  | nil => rfl
  | cons w a ih =>
    have hk : known last (w :: a) = known w a := by
      unfold known
      cases a with
      | nil => rfl
      | cons x a => rw [List.getLast?_cons_cons]; cases h : (x :: a).getLast? <;> first | rfl | simp at h
    rw [List.cons_append, watch8, watch8, hk]
    by_cases h : last ≠ w
    · rw [if_pos h, if_pos h, ih]; rfl
    · rw [if_neg h, if_neg h, ih]
      have : last = w := Classical.not_not.mp h
      rw [this]

theorem known_watch8 (last : Int) (ws : List Int) : known last (watch8 last ws) = known last ws := by
  induction ws generalizing last with
  | nil => rfl
  | cons w ws ih =>
    have hk : ∀ l d, known d (w :: l) = known w l := by
      intro l d
      unfold known
      cases l with
      | nil => rfl
      | cons x l => rw [List.getLast?_cons_cons]; cases h : (x :: l).getLast? <;> first | rfl | simp at h
    rw [watch8, hk]
    by_cases h : last ≠ w
    · rw [if_pos h, hk]; exact ih w
    · rw [if_neg h]
      have : last = w := Classical.not_not.mp h
      rw [this]; exact ih w

/-- The width that is known is the width of the window, after every signal. -/
theorem C53_known_partial {noted size : Int} (h : size = noted) (ws : List Int) :
    known size (watch8 noted ws) = known size ws := by
  subst h; exact known_watch8 size ws

/-- Once a signal has come for a width that was not the noted one, the first widths do not matter. -/
theorem C53_settles {noted size w : Int} (hw : w ≠ noted) (pre : List Int) (ws : List Int)
    (hp : ∀ x ∈ pre, x = noted) : known size (watch8 noted (pre ++ w :: ws)) = known size (pre ++ w :: ws) := by
  have hpre : watch8 noted pre = [] := by
    induction pre with
    | nil => rfl
    | cons x pre ih =>
      rw [watch8, if_neg (by simp [hp x (by simp)])]
      exact ih fun y hy => hp y (by simp [hy])
  have hk : known noted pre = noted := by
    rw [← known_watch8, hpre]; rfl
  rw [watch8_append, hpre, hk, watch8, if_pos (Ne.symm hw)]
  have e1 : ∀ d, known d (w :: ws) = known w ws := by
    intro d
    unfold known
    cases ws with
    | nil => rfl
    | cons x l => rw [List.getLast?_cons_cons]; cases h : (x :: l).getLast? <;> first | rfl | simp at h
  have e2 : ∀ d, known d (w :: watch8 w ws) = known w (watch8 w ws) := by
    intro d
    unfold known
    cases watch8 w ws with
    | nil => rfl
    | cons x l => rw [List.getLast?_cons_cons]; cases h : (x :: l).getLast? <;> first | rfl | simp at h
  have e3 : known size (pre ++ w :: ws) = known size (w :: ws) := by
    unfold known
    rw [List.getLast?_append]
    cases h : (w :: ws).getLast? with
    | none => simp at h
    | some x => rfl
  rw [List.nil_append, e2, e3, e1]
  exact known_watch8 w ws

/-- Each call of `onResize` is with a width other than the one before. -/
theorem C53_changes (noted : Int) (ws pre post : List Int) (w : Int)
    (h : watch8 noted ws = pre ++ w :: post) : w ≠ known noted pre := by
  induction ws generalizing noted pre with
  | nil => cases pre <;> cases h
  | cons x ws ih =>
    rw [watch8] at h
    by_cases hx : noted ≠ x
    · rw [if_pos hx] at h
      cases pre with
      | nil =>
        injection h with h1 _
        subst h1
        exact Ne.symm hx
      | cons p pre =>
        injection h with h1 h2
        subst h1
        have := ih x pre h2
        unfold known at this ⊢
        cases pre with
        | nil => exact this
        | cons y pre =>
          rw [List.getLast?_cons_cons]
          cases hl : (y :: pre).getLast? with
          | none => simp at hl
          | some z => rw [hl] at this; exact this
    · rw [if_neg hx] at h
      exact ih noted pre h

theorem C53_calls (noted : Int) (ws : List Int) : (watch8 noted ws).Sublist ws := by
  induction ws generalizing noted with
  | nil => exact List.Sublist.refl _
  | cons w ws ih =>
    rw [watch8]
    split
    · exact (ih w).cons_cons w
    · exact (ih noted).cons w

/-- tty10 asks every second: what is known is the last width that could be got. -/
theorem C53_tty10 (size : Int) (ticks : List (Option Int)) :
    known size (watch10 ticks) = ticks.foldl (fun w t => t.getD w) size := by
  unfold watch10
  induction ticks generalizing size with
  | nil => rfl
  | cons t ticks ih =>
    cases t with
    | none => exact ih size
    | some w =>
      rw [List.foldl_cons]
      have := ih w
      rw [Option.getD_some, ← this]
      simp only [List.filterMap_cons, id]
      unfold known
      cases h : List.filterMap id ticks with
      | nil => rfl
      | cons x l => rw [List.getLast?_cons_cons]; cases h : (x :: l).getLast? <;> first | rfl | simp at h

/-- `Open` notes 80, the window is made 100 columns wide before the signals are set up, `ReadLine`
finds 100; then the window goes back to 80: no call, 100 is kept. -/
theorem C53_refuted : known 100 (watch8 80 [80]) = 100 ∧ known 100 [80] = 80 := by decide

example : watch8 80 [80, 100, 100, 90, 80] = [100, 90, 80] := by decide

end Readline
