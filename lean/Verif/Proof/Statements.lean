import Verif.Model.Statements
import Verif.Proof.Schedule
/-!
# The code cut into statements is the code
-/
namespace Readline
open Spec

theorem stepList_runs (f : St → M St) (fs : List (St → M St)) (s : St) :
    Runs stepList (f :: fs) s (do let s ← (f :: fs).foldlM (fun s f => f s) s; return (s, ())) := by
  induction fs generalizing f s with
  | nil =>
    cases h : f s with
    | error e =>
      have h1 : stepList [f] s = .error e := by simp [stepList, h]; rfl
      have h2 : (do let s ← [f].foldlM (fun s f => f s) s; return (s, ()) : M (St × Unit)) = .error e := by
        simp only [List.foldlM_cons, List.foldlM_nil, h]; rfl
      rw [h2]
      exact .fail h1
    | ok t =>
      have h1 : stepList [f] s = .ok (t, .inr ()) := by simp [stepList, h]; rfl
      have h2 : (do let s ← [f].foldlM (fun s f => f s) s; return (s, ()) : M (St × Unit)) = .ok (t, ()) := by
        simp only [List.foldlM_cons, List.foldlM_nil, h]; rfl
      rw [h2]
      exact .done h1
  | cons f' fs ih =>
    cases h : f s with
    | error e =>
      have h1 : stepList (f :: f' :: fs) s = .error e := by simp [stepList, h]; rfl
      have h2 : (do let s ← (f :: f' :: fs).foldlM (fun s f => f s) s; return (s, ()) : M (St × Unit)) = .error e := by
        rw [List.foldlM_cons, h]; rfl
      rw [h2]
      exact .fail h1
    | ok t =>
      have h1 : stepList (f :: f' :: fs) s = .ok (t, .inl (f' :: fs)) := by simp [stepList, h]; rfl
      have h2 : (do let s ← (f :: f' :: fs).foldlM (fun s f => f s) s; return (s, ()) : M (St × Unit)) =
          (do let s ← (f' :: fs).foldlM (fun s f => f s) t; return (s, ())) := by
        rw [List.foldlM_cons, h]; rfl
      rw [h2]
      exact .more h1 (ih f' t)

theorem startStmts_eq (E : Env) (s : St) :
    (startStmts E).foldlM (fun s f => f s) s = startFrom E s := by
  unfold startStmts startFrom
  have hok : ∀ {α β : Type} (a : α) (f : α → M β), (Except.ok a >>= f) = f a := fun _ _ => rfl
  have hrest : ∀ t : St, ((do
        let (s, _) ← insertString E t 0 E.default
        return s : M St) >>= fun s =>
      (Except.ok (if s.cursor > s.len then { s with cursor := s.len } else s) : M St) >>= fun s =>
      repaintAfterPrompt E s >>= fun s => (Except.ok (s.emit .cursorOn) : M St) >>= pure) =
      (do
        let (s, _) ← insertString E t 0 E.default
        let s := if s.cursor > s.len then { s with cursor := s.len } else s
        let s ← repaintAfterPrompt E s
        return s.emit .cursorOn : M St) := by
    intro t
    cases h : insertString E t 0 E.default with
    | error e => rfl
    | ok a => rfl
  cases hc : callPromptWriter E s with
  | mk top t =>
    simp only [List.foldlM_cons, List.foldlM_nil, hc]
    exact hrest _

theorem stmts_body (E : Env) (k : Bytes) (s : St) : Runs (stepCmd E) (.off k) s (lockedPart E k s) := by
  refine .more rfl ?_
  unfold lockedPart
  dsimp only
  cases h : Cmd.call E (lookupCommand E k) (s.emit .cursorOff) with
  | error e => exact .fail (by simp [stepCmd, h]; rfl)
  | ok a =>
    obtain ⟨t, rc⟩ := a
    have h1 : stepCmd E (.call k) (s.emit .cursorOff) = .ok (t, .inl (.on rc)) := by simp [stepCmd, h]; rfl
    refine .more h1 ?_
    have hfin : ∀ rc, Runs (stepCmd E) (.finish rc) (t.emit .cursorOn)
        (do let (s, r) ← finishLocked E (t.emit .cursorOn) rc; return (s, some r)) := by
      intro rc
      cases h2 : finishLocked E (t.emit .cursorOn) rc with
      | error e => exact .fail (by simp [stepCmd, h2]; rfl)
      | ok a =>
        obtain ⟨u, r⟩ := a
        exact .done (by simp [stepCmd, h2]; rfl)
    cases rc with
    | cont => exact .done rfl
    | enter => exact .more rfl (hfin .enter)
    | abort => exact .more rfl (hfin .abort)
    | intr => exact .more rfl (hfin .intr)

theorem stmts_back (E : Env) (w : Int) (s : St) : Runs (stepBack E) (.width w) s (resizePart E w s) := by
  refine .more rfl (.more rfl ?_)
  unfold resizePart onResize
  cases h : repaintLastLine E (resetViewStart E { s with termWidth := w }) with
  | error e => exact .fail (by simp [stepBack, h]; rfl)
  | ok t => exact .done (by simp [stepBack, h]; rfl)

theorem stmts_blind (E : Env) (r : BackPc) (s : St) (i : List Ev) (p : List Tok) :
    stepBack E r (s.io i p) = under2 i p (stepBack E r s) := by
  cases r with
  | width w => rfl
  | view => rfl
  | paint =>
    simp only [stepBack]
    rw [repaintLastLine_io]
    exact under_bind fun _ => rfl

/-- The code cut into statements is the code. -/
theorem stmts_faithful (E : Env) : Faithful E (stmts E) where
  start s := by
    have h := stepList_runs (startStmts E).head! (startStmts E).tail s
    have h1 := startStmts_eq E s
    rw [← h1]
    exact h
  body := stmts_body E
  back := stmts_back E
  blind := stmts_blind E

end Readline
