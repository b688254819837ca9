import Verif.Model.Misc
/-!
# C32: the width cache is invisible
-/
namespace Readline

/-- The width a user expects for `c` after the operations `past` (most recent first): the one
set last since the last reset, else the terminal's. -/
def Spec.expectedWidth (rw : Nat → Int) (c : Nat) : List CacheOp → Int
  | [] => rw c
  | .reset :: _ => rw c
  | .set c' w :: past => if c' = c then w else Spec.expectedWidth rw c past
  | .get _ :: past => Spec.expectedWidth rw c past

/-- What the operations answer, given the earlier ones (most recent first). -/
def Spec.answers (rw : Nat → Int) : List CacheOp → List CacheOp → List (Option Int)
  | _, [] => []
  | past, .get c :: ops => some (Spec.expectedWidth rw c past) :: Spec.answers rw (.get c :: past) ops
  | past, op :: ops => none :: Spec.answers rw (op :: past) ops

theorem cacheRun_eq (rw : Nat → Int) (cache : WidthCache) (past ops : List CacheOp)
    (h : ∀ c, (cache c).getD (rw c) = Spec.expectedWidth rw c past) :
    cacheRun rw cache ops = Spec.answers rw past ops := by
  induction ops generalizing cache past with
  | nil => rfl
  | cons op ops ih =>
    cases op with
    | reset =>
      simp only [cacheRun, cacheStep, Spec.answers]
      rw [ih]
      intro c; simp [Spec.expectedWidth]
    | set c w =>
      simp only [cacheRun, cacheStep, Spec.answers]
      rw [ih]
      intro c'
      simp only [Spec.expectedWidth]
      by_cases hc : c' = c
      · subst hc; simp
      · rw [if_neg hc, if_neg (fun h => hc h.symm)]; exact h c'
    | get c =>
      simp only [cacheRun, Spec.answers]
      have hc := h c
      unfold cacheStep
      cases hcc : cache c with
      | some w =>
        simp only [hcc, Option.getD_some] at hc ⊢
        rw [hc, ih]
        intro c'; simp only [Spec.expectedWidth]; exact h c'
      | none =>
        simp only [hcc, Option.getD_none] at hc ⊢
        rw [← hc, ih]
        intro c'
        simp only [Spec.expectedWidth]
        by_cases hcc' : c' = c
        · subst hcc'; simp [hc]
        · rw [if_neg hcc']; exact h c'

/-- Every width query answers the width set last, whatever was asked before. -/
theorem C32 (rw : Nat → Int) (ops : List CacheOp) :
    cacheRun rw (fun _ => none) ops = Spec.answers rw [] ops :=
  cacheRun_eq rw _ [] ops (by intro c; rfl)

/-- Non-vacuity: ask, set, ask, ask another, reset, ask. -/
example : cacheRun (fun _ => 1) (fun _ => none)
    [.get 65, .set 65 2, .get 65, .get 66, .reset, .get 65]
    = [some 1, none, some 2, some 1, none, some 1] := by decide

end Readline
