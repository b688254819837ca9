import Verif.Proof.Local
import Verif.Model.Threads
/-!
# Output already written makes no difference

The same as `Shift.lean` for the commands that read keys: the input is the same, other output was
written before.
-/
namespace Readline
open Spec

variable {E : Env} {i : List Ev} {p : List Tok}

/-- The state with the output `p` written before. -/
def St.wrote (s : St) (p : List Tok) : St := s.io s.input p

/-- The same outcome, with the output `p` written before. -/
def wroteAll (p : List Tok) : M (St × α) → M (St × α)
  | .ok a => .ok (a.1.wrote p, a.2)
  | .error e => .error ⟨e.kind, e.st.wrote p⟩

/-- A function that does not look at the output. -/
def OutBlind (f : St → M (St × α)) : Prop := ∀ s p, f (s.wrote p) = wroteAll p (f s)

theorem io_self (s : St) : s.io s.input [] = s := rfl

theorem io_io (s : St) (j : List Ev) (q : List Tok) : (s.io i p).io j q = s.io j (q ++ p) := by
  simp [St.io, List.append_assoc]

theorem outBlind_io {f : St → M (St × α)} (h : ∀ s i p, f (s.io i p) = under2 i p (f s)) : OutBlind f := by
  intro s p
  have h1 := h s s.input []
  rw [io_self] at h1
  rw [show s.wrote p = s.io s.input p from rfl, h]
  cases hf : f s with
  | ok a =>
    rw [hf] at h1
    have h2 : a.1 = a.1.io s.input [] := by injection h1 with h1; exact (Prod.ext_iff.mp h1).1
    have h3 : a.1.input = s.input := by rw [h2]; rfl
    show Except.ok (a.1.io s.input p, a.2) = Except.ok (a.1.io a.1.input p, a.2)
    rw [h3]
  | error e =>
    rw [hf] at h1
    have h2 : e = ⟨e.kind, e.st.io s.input []⟩ := by injection h1
    have h3 : e.st.input = s.input := by rw [h2]; rfl
    show Except.error (Panic.mk e.kind (e.st.io s.input p)) = Except.error ⟨e.kind, e.st.io e.st.input p⟩
    rw [h3]

theorem getKey_wrote (s : St) : getKey (s.wrote p) = ((getKey s).1, (getKey s).2.wrote p) := by
  unfold getKey
  dsimp only
  have h : (s.wrote p).emit .await = (s.emit .await).wrote p := emit_io ..
  rw [h]
  have h2 : ((s.emit .await).wrote p).input = (s.emit .await).input := rfl
  rw [h2]
  cases popKey (s.emit .await).input with
  | none => rfl
  | some q =>
    obtain ⟨ev, rest⟩ := q
    cases ev <;> rfl

theorem wrote_emit (s : St) (t : Tok) : (s.wrote p).emit t = (s.emit t).wrote p := emit_io ..

theorem wroteAll_bind {x : M (St × α)} {k k' : St × α → M (St × β)}
    (h : ∀ a, k (a.1.wrote p, a.2) = wroteAll p (k' a)) :
    (wroteAll p x >>= k) = wroteAll p (x >>= k') := by
  cases x with
  | ok a => exact h a
  | error e => rfl

theorem quotedInsert_out : OutBlind (cmdQuotedInsert E) := by
  intro s p
  unfold cmdQuotedInsert
  dsimp only
  rw [wrote_emit, getKey_wrote]
  cases hk : (getKey (s.emit .cursorOn)).1 with
  | none =>
    obtain ⟨t, ht⟩ : ∃ t, getKey (s.emit .cursorOn) = (none, t) := ⟨_, Prod.ext hk rfl⟩
    rw [ht]
    show Except.ok ((t.wrote p).emit .cursorOff, Result.cont) = _
    rw [wrote_emit]
    rfl
  | some k =>
    obtain ⟨t, ht⟩ : ∃ t, getKey (s.emit .cursorOn) = (some k, t) := ⟨_, Prod.ext hk rfl⟩
    rw [ht]
    dsimp only
    rw [outBlind_io (fun s i p => cmdSelfInsert_io s k) t p]
    refine wroteAll_bind fun a => ?_
    show Except.ok ((a.1.wrote p).emit .cursorOff, a.2) = _
    rw [wrote_emit]
    rfl

theorem isearchLoop_out (n : Nat) (it : ISt) : OutBlind (isearchLoop E n it) := by
  induction n generalizing it with
  | zero => intro s p; rfl
  | succ n ih =>
    intro s p
    rw [isearchLoop_succ, isearchLoop_succ]
    have h1 := outBlind_io (f := fun s => (isearchShow E it s).map fun t => (t, ())) (fun s i p => by
      show (isearchShow E it (s.io i p)).map _ = _
      rw [isearchShow_io]
      cases isearchShow E it s <;> rfl) s p
    dsimp only at h1
    cases hd : isearchShow E it s with
    | error e =>
      rw [hd] at h1
      cases hd' : isearchShow E it (s.wrote p) with
      | ok t => rw [hd'] at h1; cases h1
      | error e' =>
        rw [hd'] at h1
        injection h1 with h1
        subst h1
        rfl
    | ok t =>
      rw [hd] at h1
      cases hd' : isearchShow E it (s.wrote p) with
      | error e' => rw [hd'] at h1; cases h1
      | ok t' =>
        rw [hd'] at h1
        injection h1 with h1
        have h1 : t' = t.wrote p := (Prod.ext_iff.mp h1).1
        subst h1
        show (match getKey (t.wrote p) with
          | (none, s) => pure (s, Result.cont)
          | (some key, s) => isearchKey E n it key s) = wroteAll p (match getKey t with
          | (none, s) => pure (s, Result.cont)
          | (some key, s) => isearchKey E n it key s)
        rw [getKey_wrote]
        cases hk : (getKey t).1 with
        | none =>
          obtain ⟨u, hu⟩ : ∃ u, getKey t = (none, u) := ⟨_, Prod.ext hk rfl⟩
          rw [hu]
          rfl
        | some k =>
          obtain ⟨u, hu⟩ : ∃ u, getKey t = (some k, u) := ⟨_, Prod.ext hk rfl⟩
          rw [hu]
          dsimp only
          rcases isearchKey_cases (E := E) it k u with ⟨it', v, hv, hvi, hio⟩ | ⟨y, hy, hio⟩
          · rw [hv, show u.wrote p = u.io u.input p from rfl, hio, ← hvi]
            exact ih it' v p
          · rw [hy, show u.wrote p = u.io u.input p from rfl, hio]
            have h5 := hio u.input [] n
            rw [io_self, hy] at h5
            cases y with
            | ok a =>
              have h2 : a.1 = a.1.io u.input [] := by injection h5 with h5; exact (Prod.ext_iff.mp h5).1
              have h3 : a.1.input = u.input := by rw [h2]; rfl
              show Except.ok (a.1.io u.input p, a.2) = Except.ok (a.1.io a.1.input p, a.2)
              rw [h3]
            | error e =>
              have h2 : e = ⟨e.kind, e.st.io u.input []⟩ := by injection h5
              have h3 : e.st.input = u.input := by rw [h2]; rfl
              show Except.error (Panic.mk e.kind (e.st.io u.input p)) = Except.error ⟨e.kind, e.st.io e.st.input p⟩
              rw [h3]

theorem isearch_out : OutBlind (cmdISearchBackward E) := by
  intro s p
  unfold cmdISearchBackward
  have h : gotoHead (s.wrote p) = (gotoHead s).wrote p := gotoHead_io ..
  rw [h]
  exact isearchLoop_out _ _ _ _

/-- The commands of a key map do not look at the output.  This is so for all builtin commands; a Go
command cannot read what was written. -/
def Spec.OutBlindKeys (E : Env) : Prop := ∀ k f, lookupCommand E k = .custom f → OutBlind f

theorem call_out {c : Cmd} (hc : ∀ f, c = .custom f → OutBlind f) : OutBlind (Cmd.call E c) := by
  cases c with
  | acceptLine => exact outBlind_io (f := Cmd.call E .acceptLine) (fun _ _ _ => rfl)
  | interrupt => exact outBlind_io (f := Cmd.call E .interrupt) (fun _ _ _ => rfl)
  | beginningOfLine => exact outBlind_io (f := Cmd.call E .beginningOfLine) (fun _ _ _ => cmdBeginningOfLine_io _)
  | backwardChar => exact outBlind_io (f := Cmd.call E .backwardChar) (fun _ _ _ => cmdBackwardChar_io _)
  | endOfLine => exact outBlind_io (f := Cmd.call E .endOfLine) (fun _ _ _ => cmdEndOfLine_io _)
  | forwardChar => exact outBlind_io (f := Cmd.call E .forwardChar) (fun _ _ _ => cmdForwardChar_io _)
  | backwardDeleteChar => exact outBlind_io (f := Cmd.call E .backwardDeleteChar) (fun _ _ _ => cmdBackwardDeleteChar_io _)
  | deleteChar => exact outBlind_io (f := Cmd.call E .deleteChar) (fun _ _ _ => cmdDeleteChar_io _)
  | deleteOrAbort => exact outBlind_io (f := Cmd.call E .deleteOrAbort) (fun _ _ _ => cmdDeleteOrAbort_io _)
  | killLine => exact outBlind_io (f := Cmd.call E .killLine) (fun _ _ _ => cmdKillLine_io _)
  | killWholeLine => exact outBlind_io (f := Cmd.call E .killWholeLine) (fun _ _ _ => cmdKillWholeLine_io _)
  | unixWordRubout => exact outBlind_io (f := Cmd.call E .unixWordRubout) (fun _ _ _ => cmdUnixWordRubout_io _)
  | unixLineDiscard => exact outBlind_io (f := Cmd.call E .unixLineDiscard) (fun _ _ _ => cmdUnixLineDiscard_io _)
  | clearScreen => exact outBlind_io (f := Cmd.call E .clearScreen) (fun _ _ _ => cmdClearScreen_io _)
  | repaintOnNewline => exact outBlind_io (f := Cmd.call E .repaintOnNewline) (fun _ _ _ => cmdRepaintOnNewline_io _)
  | quotedInsert => exact quotedInsert_out
  | yank => exact outBlind_io (f := Cmd.call E .yank) (fun _ _ _ => cmdYank_io _)
  | yankWithQuote => exact outBlind_io (f := Cmd.call E .yankWithQuote) (fun _ _ _ => cmdYankWithQuote_io _)
  | swapChar => exact outBlind_io (f := Cmd.call E .swapChar) (fun _ _ _ => cmdSwapChar_io _)
  | backwardWord => exact outBlind_io (f := Cmd.call E .backwardWord) (fun _ _ _ => cmdBackwardWord_io _)
  | forwardWord => exact outBlind_io (f := Cmd.call E .forwardWord) (fun _ _ _ => cmdForwardWord_io _)
  | undo => exact outBlind_io (f := Cmd.call E .undo) (fun _ _ _ => cmdUndo_io _)
  | previousHistory => exact outBlind_io (f := Cmd.call E .previousHistory) (fun _ _ _ => cmdPreviousHistory_io _)
  | nextHistory => exact outBlind_io (f := Cmd.call E .nextHistory) (fun _ _ _ => cmdNextHistory_io _)
  | isearchBackward => exact isearch_out
  | selfInsert k => exact outBlind_io (f := Cmd.call E (.selfInsert k)) (fun _ _ _ => cmdSelfInsert_io _ k)
  | completion P => exact outBlind_io (f := Cmd.call E (.completion P)) (fun _ _ _ => cmdComplete_io P _)
  | custom f => exact hc f rfl

/-! ## The part inside the mutex -/

theorem finish_eq (s : St) (rc : Result) :
    finish E s rc = (finishLocked E s rc).map fun a => (deferred a.1, a.2) := by
  unfold finish finishLocked
  cases s.suffix with
  | none => rfl
  | some x => dsimp only; cases repaintNoSuffix E { s with suffix := none } <;> rfl

/-- `execCmd` is the part inside the mutex, and the deferred writes when the editing ends. -/
theorem execCmd_eq (k : Bytes) (s : St) :
    execCmd E (lookupCommand E k) s = (lockedPart E k s).map fun a =>
      match a.2 with
      | none => (a.1, none)
      | some r => (deferred a.1, some r) := by
  unfold execCmd lockedPart
  dsimp only
  cases Cmd.call E (lookupCommand E k) (s.emit .cursorOff) with
  | error e => rfl
  | ok a =>
    obtain ⟨t, rc⟩ := a
    have hf := finish_eq (E := E) (t.emit .cursorOn) rc
    cases rc with
    | cont => rfl
    | _ =>
      show (finish E (t.emit .cursorOn) _ >>= fun a => pure (a.1, some a.2)) =
        Except.map _ (finishLocked E (t.emit .cursorOn) _ >>= fun a => pure (a.1, some a.2))
      rw [hf]
      cases finishLocked E (t.emit .cursorOn) _ <;> rfl

theorem finishLocked_out (rc : Result) : OutBlind (fun s => finishLocked E s rc) := by
  refine outBlind_io fun s i p => ?_
  have h1 := finish_io (E := E) (i := i) (p := p) s rc
  unfold finishLocked
  have h : (match (s.io i p).suffix with
      | some _ => repaintNoSuffix E { s.io i p with suffix := none }
      | none => pure (s.io i p)) = under1 i p (match s.suffix with
      | some _ => repaintNoSuffix E { s with suffix := none }
      | none => pure s) := by
    rw [io_suffix]
    split
    · exact repaintNoSuffix_io { s with suffix := none }
    · rfl
  refine (congrArg (· >>= _) h).trans (under_bind fun a => ?_)
  cases E.lineFeed with
  | none => dsimp only; rw [emit_io, emit_io]; rfl
  | some f => dsimp only; rw [emit_io, emit_io]; rfl

theorem lockedPart_out (hE : Spec.OutBlindKeys E) (k : Bytes) : OutBlind (lockedPart E k) := by
  intro s p
  unfold lockedPart
  dsimp only
  rw [wrote_emit, call_out (hE k) _ p]
  refine wroteAll_bind fun a => ?_
  obtain ⟨t, rc⟩ := a
  have hf := finishLocked_out (E := E) rc (t.emit .cursorOn) p
  dsimp only at hf
  rw [← wrote_emit] at hf
  cases rc with
  | cont => show Except.ok ((t.wrote p).emit .cursorOn, none) = _; rw [wrote_emit]; rfl
  | _ =>
    show (finishLocked E ((t.wrote p).emit .cursorOn) _ >>= fun a => pure (a.1, some a.2)) = _
    rw [hf]
    exact wroteAll_bind fun a => rfl

end Readline
