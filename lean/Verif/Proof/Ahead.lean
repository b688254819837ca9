import Verif.Proof.Merge
/-!
# What is typed ahead makes no difference and stays unread

A session whose input ends with an event `x` that it does not read does the same with anything else
in the place of `x`.
-/
namespace Readline
open Spec

variable {E : Env} {w : World}

/-- Not a resize. -/
def Ev.isKey : Ev → Bool
  | .resize _ => false
  | _ => true

/-- If the last event is not read, other events in its place are not read either and make no
difference. -/
def Ahead (f : St → M (St × α)) : Prop :=
  ∀ (s : St) (I : List Ev) (x : Ev) (s' : St) (a : α), Ev.isKey x = true → f (s.io (I ++ [x]) []) = .ok (s', a) → noResize s'.input ≠ [] →
    ∃ I', s'.input = I' ++ [x] ∧ ∀ C p, f (s.io (I ++ C) p) = .ok (s'.io (I' ++ C) p, a)

theorem ahead_io {f : St → M (St × α)} (h : ∀ s i p, f (s.io i p) = under2 i p (f s)) : Ahead f := by
  intro s I x s' a _ hf _
  rw [h] at hf
  cases hs : f s with
  | error e => rw [hs] at hf; cases hf
  | ok q =>
    rw [hs] at hf
    injection hf with hf
    obtain ⟨rfl, rfl⟩ := Prod.ext_iff.mp hf
    refine ⟨I, rfl, fun C p => ?_⟩
    rw [h, hs]
    show Except.ok (q.1.io (I ++ C) p, q.2) = .ok ((q.1.io (I ++ [x]) []).io (I ++ C) p, q.2)
    rw [io_io, List.append_nil]

theorem popKey_append {I C : List Ev} {k : Ev} {I' : List Ev} (h : popKey I = some (k, I')) :
    popKey (I ++ C) = some (k, I' ++ C) := by
  induction I generalizing I' with
  | nil => cases h
  | cons y I ih =>
    cases y with
    | resize n =>
      rw [popKey] at h
      cases hp : popKey I with
      | none => rw [hp] at h; cases h
      | some q =>
        obtain ⟨k', R⟩ := q
        rw [hp] at h
        dsimp only at h
        injection h with h
        obtain ⟨rfl, rfl⟩ := Prod.mk.inj h
        rw [List.cons_append, popKey, ih hp]
        rfl
    | key b => simp only [popKey] at h; injection h with h; obtain ⟨rfl, rfl⟩ := Prod.mk.inj h; rfl
    | err b => simp only [popKey] at h; injection h with h; obtain ⟨rfl, rfl⟩ := Prod.mk.inj h; rfl

theorem popKey_last {I : List Ev} {x : Ev} (hx : Ev.isKey x = true) (h : popKey I = none) :
    popKey (I ++ [x]) = some (x, I) ∧ noResize I = [] := by
  induction I with
  | nil => cases x <;> first | exact ⟨rfl, rfl⟩ | cases hx
  | cons y I ih =>
    cases y with
    | resize n =>
      rw [popKey] at h
      cases hp : popKey I with
      | none =>
        obtain ⟨h1, h2⟩ := ih hp
        rw [List.cons_append, popKey, h1]
        exact ⟨rfl, h2⟩
      | some q => rw [hp] at h; cases h
    | key b => cases h
    | err b => cases h

/-- Reading a key: either one that stands before the last event, or the last one, after which there
is none. -/
theorem getKey_ahead (s : St) (I : List Ev) {x : Ev} (hx : Ev.isKey x = true) :
    (∃ k I', ∀ C p, getKey (s.io (I ++ C) p) = (k, (s.emit .await).io (I' ++ C) p)) ∨
    (noResize I = [] ∧ ∃ k, ∀ p, getKey (s.io (I ++ [x]) p) = (k, (s.emit .await).io I p)) := by
  cases h : popKey I with
  | some q =>
    obtain ⟨k, I'⟩ := q
    left
    have hk : ∀ C, popKey (I ++ C) = some (k, I' ++ C) := fun C => popKey_append h
    cases k with
    | key k =>
      refine ⟨some k, I', fun C p => ?_⟩
      unfold getKey
      dsimp only
      rw [emit_io, show ((s.emit .await).io (I ++ C) p).input = I ++ C from rfl, hk]
      rfl
    | err k =>
      refine ⟨none, I', fun C p => ?_⟩
      unfold getKey
      dsimp only
      rw [emit_io, show ((s.emit .await).io (I ++ C) p).input = I ++ C from rfl, hk]
      rfl
    | resize k =>
      refine ⟨none, I', fun C p => ?_⟩
      unfold getKey
      dsimp only
      rw [emit_io, show ((s.emit .await).io (I ++ C) p).input = I ++ C from rfl, hk]
      rfl
  | none =>
    right
    obtain ⟨h1, h2⟩ := popKey_last hx h
    refine ⟨h2, ?_⟩
    cases x with
    | resize n => cases hx
    | key k =>
      refine ⟨some k, fun p => ?_⟩
      unfold getKey
      dsimp only
      rw [emit_io, show ((s.emit .await).io (I ++ [Ev.key k]) p).input = I ++ [.key k] from rfl, h1]
      rfl
    | err k =>
      refine ⟨none, fun p => ?_⟩
      unfold getKey
      dsimp only
      rw [emit_io, show ((s.emit .await).io (I ++ [Ev.err k]) p).input = I ++ [.err k] from rfl, h1]
      rfl

theorem under_input {x : M (St × α)} {i : List Ev} {p : List Tok} {s' : St} {a : α}
    (h : under2 i p x = .ok (s', a)) : s'.input = i := by
  cases x with
  | error e => cases h
  | ok q => injection h with h; obtain ⟨rfl, -⟩ := Prod.ext_iff.mp h;rfl

theorem quotedInsert_ahead : Ahead (cmdQuotedInsert E) := by
  intro s I x s' a hx h hn
  have run : ∀ i p, cmdQuotedInsert E (s.io i p) = (match getKey ((s.emit .cursorOn).io i p) with
      | (none, s) => pure (s.emit .cursorOff, Result.cont)
      | (some key, s) => do
        let (s, r) ← cmdSelfInsert E key s
        return (s.emit .cursorOff, r)) := by
    intro i p
    unfold cmdQuotedInsert
    dsimp only
    rw [emit_io]
    rcases getKey ((s.emit .cursorOn).io i p) with ⟨_ | k, t⟩ <;> rfl
  rw [run] at h
  rcases getKey_ahead (s.emit .cursorOn) I hx with ⟨k, I', hk⟩ | ⟨hI, k, hk⟩
  · rw [hk] at h
    cases k with
    | none =>
      injection h with h
      obtain ⟨rfl, rfl⟩ := Prod.ext_iff.mp h
      refine ⟨I', rfl, fun C p => ?_⟩
      rw [run, hk]
      dsimp only
      rw [emit_io, emit_io, io_io, List.append_nil]
      rfl
    | some k =>
      dsimp only at h
      cases hc : cmdSelfInsert E k ((s.emit .cursorOn).emit .await) with
      | error e => rw [cmdSelfInsert_io, hc] at h; cases h
      | ok q =>
        rw [cmdSelfInsert_io, hc] at h
        injection h with h
        obtain ⟨rfl, rfl⟩ := Prod.ext_iff.mp h
        refine ⟨I', rfl, fun C p => ?_⟩
        rw [run, hk]
        dsimp only
        rw [cmdSelfInsert_io, hc]
        show Except.ok ((q.1.io (I' ++ C) p).emit .cursorOff, q.2) =
          .ok (((q.1.io (I' ++ [x]) []).emit .cursorOff).io (I' ++ C) p, q.2)
        rw [emit_io, emit_io, io_io, List.append_nil]
  · exfalso
    rw [hk] at h
    cases k with
    | none =>
      injection h with h
      obtain ⟨rfl, rfl⟩ := Prod.ext_iff.mp h
      exact hn hI
    | some k =>
      dsimp only at h
      rw [cmdSelfInsert_io] at h
      cases hc : cmdSelfInsert E k ((s.emit .cursorOn).emit .await) with
      | error e => rw [hc] at h; cases h
      | ok q =>
        rw [hc] at h
        injection h with h
        obtain ⟨rfl, rfl⟩ := Prod.ext_iff.mp h
        exact hn hI

/-- The rounds of the search as long as no key is left. -/
theorem isearchLoop_quiet (n : Nat) (it : ISt) {s s' : St} {r : Result} (hi : noResize s.input = [])
    (h : isearchLoop E n it s = .ok (s', r)) : noResize s'.input = [] := by
  cases n with
  | zero => cases h
  | succ n =>
    rw [isearchLoop_succ] at h
    cases hd : isearchShow E it s with
    | error e => rw [hd] at h; cases h
    | ok s1 =>
      rw [hd] at h
      have hs1 := isearchShow_input hd
      change (match getKey s1 with
          | (none, s) => pure (s, Result.cont)
          | (some key, s) => isearchKey E n it key s) = _ at h
      have : getKey s1 = (none, s1.emit .await) := by
        unfold getKey
        dsimp only
        rw [show (s1.emit .await).input = s1.input from rfl, hs1, popKey_nil hi]
      rw [this] at h
      injection h with h
      obtain ⟨rfl, rfl⟩ := Prod.ext_iff.mp h
      show noResize s1.input = []
      rw [hs1]; exact hi

theorem isearchLoop_ahead (n : Nat) (it : ISt) {s : St} {I : List Ev} {x : Ev} {s' : St} {r : Result}
    (hx : Ev.isKey x = true) (h : isearchLoop E n it (s.io (I ++ [x]) []) = .ok (s', r))
    (hn : noResize s'.input ≠ []) :
    ∃ I', s'.input = I' ++ [x] ∧ ∀ C p m, (I ++ C).length < m →
      isearchLoop E m it (s.io (I ++ C) p) = .ok (s'.io (I' ++ C) p, r) := by
  induction n generalizing it s I with
  | zero => cases h
  | succ n ih =>
    rw [isearchLoop_succ, isearchShow_io] at h
    cases hd : isearchShow E it s with
    | error e => rw [hd] at h; cases h
    | ok s1 =>
      rw [hd] at h
      have hrun : ∀ i p m, isearchLoop E (m + 1) it (s.io i p) =
          (match getKey (s1.io i p) with
          | (none, s) => pure (s, Result.cont)
          | (some key, s) => isearchKey E m it key s) := by
        intro i p m; rw [isearchLoop_succ, isearchShow_io, hd]; rfl
      change (match getKey (s1.io (I ++ [x]) []) with
          | (none, s) => pure (s, Result.cont)
          | (some key, s) => isearchKey E n it key s) = _ at h
      have hlen : ∀ k I', (∀ C p, getKey (s1.io (I ++ C) p) = (k, (s1.emit .await).io (I' ++ C) p)) →
          k ≠ none → I'.length < I.length := by
        intro k I' hk hne
        have := hk [] []
        unfold getKey at this
        dsimp only at this
        rw [emit_io, show ((s1.emit .await).io (I ++ []) []).input = I ++ [] from rfl] at this
        cases hp : popKey (I ++ []) with
        | none =>
          rw [hp] at this
          exact absurd (Prod.ext_iff.mp this).1.symm hne
        | some q =>
          obtain ⟨e, R⟩ := q
          have hl : ∀ l e R, popKey l = some (e, R) → R.length < l.length := by
            intro l
            induction l with
            | nil => intro e R h; cases h
            | cons y l ih =>
              intro e R h
              cases y with
              | resize n =>
                rw [popKey] at h
                cases hq : popKey l with
                | none => rw [hq] at h; cases h
                | some q =>
                  rw [hq] at h
                  injection h with h
                  have h2 := (Prod.mk.inj h).2
                  have := ih q.1 q.2 hq
                  rw [← h2]
                  simp only [List.length_cons]
                  omega
              | key b => simp only [popKey] at h; injection h with h; rw [← (Prod.mk.inj h).2]; simp
              | err b => simp only [popKey] at h; injection h with h; rw [← (Prod.mk.inj h).2]; simp
          have h3 := hl _ _ _ hp
          rw [hp] at this
          have h4 : R = I' ++ [] := by
            cases e <;> exact congrArg St.input (Prod.ext_iff.mp this).2
          rw [h4] at h3
          simpa using h3
      rcases getKey_ahead s1 I hx with ⟨k, I', hk⟩ | ⟨hI, k, hk⟩
      · rw [hk] at h
        cases k with
        | none =>
          injection h with h
          obtain ⟨rfl, rfl⟩ := Prod.ext_iff.mp h
          refine ⟨I', rfl, fun C p m hm => ?_⟩
          obtain ⟨m, rfl⟩ : ∃ m', m = m' + 1 := ⟨m - 1, by omega⟩
          rw [hrun, hk]
          show Except.ok _ = Except.ok _
          rw [io_io, List.append_nil]
        | some k =>
          have hl := hlen _ _ hk (by simp)
          dsimp only at h
          rcases isearchKey_cases (E := E) it k (s1.emit .await) with
            ⟨it', t, ht, hti, hio⟩ | ⟨y, hy, hio⟩
          · rw [hio] at h
            obtain ⟨I2, g1, g2⟩ := ih it' h
            refine ⟨I2, g1, fun C p m hm => ?_⟩
            obtain ⟨m, rfl⟩ : ∃ m', m = m' + 1 := ⟨m - 1, by omega⟩
            rw [hrun, hk]
            dsimp only
            rw [hio]
            refine g2 C p m ?_
            simp only [List.length_append] at hm ⊢
            omega
          · rw [hio] at h
            cases y with
            | error e => cases h
            | ok q =>
              injection h with h
              obtain ⟨rfl, rfl⟩ := Prod.ext_iff.mp h
              refine ⟨I', rfl, fun C p m hm => ?_⟩
              obtain ⟨m, rfl⟩ : ∃ m', m = m' + 1 := ⟨m - 1, by omega⟩
              rw [hrun, hk]
              dsimp only
              rw [hio]
              show Except.ok _ = Except.ok _
              rw [io_io, List.append_nil]
      · exfalso
        rw [hk] at h
        cases k with
        | none =>
          injection h with h
          obtain ⟨rfl, rfl⟩ := Prod.ext_iff.mp h
          exact hn hI
        | some k =>
          dsimp only at h
          rcases isearchKey_cases (E := E) it k (s1.emit .await) with
            ⟨it', t, ht, hti, hio⟩ | ⟨y, hy, hio⟩
          · rw [hio] at h
            exact hn (isearchLoop_quiet n it' hI h)
          · rw [hio] at h
            rw [under_input h] at hn
            exact hn hI

theorem isearch_ahead : Ahead (cmdISearchBackward E) := by
  intro s I x s' a hx h hn
  unfold cmdISearchBackward at h
  rw [gotoHead_io] at h
  obtain ⟨I', g1, g2⟩ := isearchLoop_ahead _ _ hx h hn
  refine ⟨I', g1, fun C p => ?_⟩
  unfold cmdISearchBackward
  rw [gotoHead_io]
  exact g2 C p _ (Nat.lt_succ_self _)

theorem call_ahead {c : Cmd} (hb : c.builtin = true) : Ahead (Cmd.call E c) := by
  cases c with
  | acceptLine => exact ahead_io (fun _ _ _ => rfl)
  | interrupt => exact ahead_io (fun _ _ _ => rfl)
  | beginningOfLine => exact ahead_io (fun _ _ _ => cmdBeginningOfLine_io _)
  | backwardChar => exact ahead_io (fun _ _ _ => cmdBackwardChar_io _)
  | endOfLine => exact ahead_io (fun _ _ _ => cmdEndOfLine_io _)
  | forwardChar => exact ahead_io (fun _ _ _ => cmdForwardChar_io _)
  | backwardDeleteChar => exact ahead_io (fun _ _ _ => cmdBackwardDeleteChar_io _)
  | deleteChar => exact ahead_io (fun _ _ _ => cmdDeleteChar_io _)
  | deleteOrAbort => exact ahead_io (fun _ _ _ => cmdDeleteOrAbort_io _)
  | killLine => exact ahead_io (fun _ _ _ => cmdKillLine_io _)
  | killWholeLine => exact ahead_io (fun _ _ _ => cmdKillWholeLine_io _)
  | unixWordRubout => exact ahead_io (fun _ _ _ => cmdUnixWordRubout_io _)
  | unixLineDiscard => exact ahead_io (fun _ _ _ => cmdUnixLineDiscard_io _)
  | clearScreen => exact ahead_io (fun _ _ _ => cmdClearScreen_io _)
  | repaintOnNewline => exact ahead_io (fun _ _ _ => cmdRepaintOnNewline_io _)
  | quotedInsert => exact quotedInsert_ahead
  | yank => exact ahead_io (fun _ _ _ => cmdYank_io _)
  | yankWithQuote => exact ahead_io (fun _ _ _ => cmdYankWithQuote_io _)
  | swapChar => exact ahead_io (fun _ _ _ => cmdSwapChar_io _)
  | backwardWord => exact ahead_io (fun _ _ _ => cmdBackwardWord_io _)
  | forwardWord => exact ahead_io (fun _ _ _ => cmdForwardWord_io _)
  | undo => exact ahead_io (fun _ _ _ => cmdUndo_io _)
  | previousHistory => exact ahead_io (fun _ _ _ => cmdPreviousHistory_io _)
  | nextHistory => exact ahead_io (fun _ _ _ => cmdNextHistory_io _)
  | isearchBackward => exact isearch_ahead
  | selfInsert k => exact ahead_io (fun _ _ _ => cmdSelfInsert_io _ k)
  | completion P => exact ahead_io (fun _ _ _ => cmdComplete_io P _)
  | custom f => cases hb

theorem execCmd_ahead {c : Cmd} (hb : c.builtin = true) : Ahead (execCmd E c) := by
  intro s I x s' o hx h hn
  have run : ∀ i p i' p' (q : St) rc, Cmd.call E c ((s.emit .cursorOff).io i p) = .ok (q.io i' p', rc) →
      execCmd E c (s.io i p) =
      (match rc with
        | .cont => .ok ((q.emit .cursorOn).io i' p', none)
        | rc => do
          let (s, r) ← finish E ((q.emit .cursorOn).io i' p') rc
          return (s, some r)) := by
    intro i p i' p' q rc hc
    unfold execCmd
    dsimp only
    rw [emit_io, hc]
    show (match rc with
      | .cont => Except.ok ((q.io i' p').emit .cursorOn, none)
      | rc => do
        let (s, r) ← finish E ((q.io i' p').emit .cursorOn) rc
        return (s, some r)) = _
    rw [emit_io]
  cases hc : Cmd.call E c ((s.emit .cursorOff).io (I ++ [x]) []) with
  | error e =>
    unfold execCmd at h
    dsimp only at h
    rw [emit_io, hc] at h
    cases h
  | ok q =>
    obtain ⟨q, rc⟩ := q
    rw [run _ _ q.input [] q rc hc] at h
    cases rc with
    | cont =>
      injection h with h
      obtain ⟨rfl, rfl⟩ := Prod.ext_iff.mp h
      obtain ⟨I', g1, g2⟩ := call_ahead hb _ _ _ _ _ hx hc hn
      exact ⟨I', g1, fun C p => run _ _ _ _ _ _ (g2 C p)⟩
    | _ =>
      change (do
          let (s, r) ← finish E (q.emit .cursorOn) _
          return (s, some r)) = _ at h
      cases hf : finish E (q.emit .cursorOn) _ with
      | error e => rw [hf] at h; cases h
      | ok z =>
        rw [hf] at h
        injection h with h
        obtain ⟨rfl, rfl⟩ := Prod.ext_iff.mp h
        have hz : z.1.input = q.input := (finish_input' hf :)
        obtain ⟨I', g1, g2⟩ := call_ahead hb _ _ _ _ _ hx hc (by rw [← hz]; exact hn)
        refine ⟨I', by show z.1.input = _; rw [hz]; exact g1, fun C p => ?_⟩
        rw [run _ _ _ _ _ _ (g2 C p)]
        dsimp only
        rw [finish_io, hf]
        rfl

theorem step_key_sublist {s s' : St} {k : Bytes} {rest : List Ev} {o : Option RLRes} (hb : BuiltinKeys E)
    (hi : s.input = .key k :: rest) (h : step E s = .ok (s', o)) : s'.input.Sublist rest := by
  obtain ⟨h1, h2⟩ := step_key_ed hi rfl (BuiltinKeys.builtin hb k) h
  have hc := Ed.call_input E.logic (lookupCommand E k) { s.ed with input := rest }
  by_cases hcont : (Ed.call E.logic (lookupCommand E k) { s.ed with input := rest }).2 = .cont
  · obtain ⟨-, h1⟩ := h1 hcont
    have : s'.input = (Ed.call E.logic (lookupCommand E k) { s.ed with input := rest }).1.input := by
      rcases h1 with he | ⟨-, he⟩
      · exact congrArg Ed.input he
      · have := congrArg Ed.input he; simp at this; exact this
    rw [this]; exact hc
  · have : s'.input = (Ed.call E.logic (lookupCommand E k) { s.ed with input := rest }).1.input :=
      congrArg Ed.input (h2 hcont).2
    rw [this]; exact hc

theorem step_ahead (hb : BuiltinKeys E) {s : St} {I : List Ev} {x : Ev} {s' : St} {o : Option RLRes}
    (hx : Ev.isKey x = true) (h : step E (s.io (I ++ [x]) []) = .ok (s', o))
    (hn : noResize s'.input ≠ []) :
    ∃ I', s'.input = I' ++ [x] ∧ I'.length < I.length ∧
      ∀ C p, step E (s.io (I ++ C) p) = .ok (s'.io (I' ++ C) p, o) := by
  cases I with
  | nil =>
    exfalso
    have hin : (s.io ([] ++ [x]) []).input = x :: [] := rfl
    cases x with
    | resize n => cases hx
    | err e =>
      rw [step, hin] at h
      injection h with h
      obtain ⟨rfl, -⟩ := Prod.ext_iff.mp h
      exact hn rfl
    | key k =>
      have h1 := h
      rw [step_key hin] at h1
      obtain ⟨u, hu, -⟩ := execCmd_takes (BuiltinKeys.builtin hb k) (by rfl) h1
      have : s'.input = [] := (List.append_eq_nil_iff.mp hu.symm).2
      rw [this] at hn
      exact hn rfl
  | cons y I =>
    have hin : ∀ C p, (s.io (y :: I ++ C) p).input = y :: (I ++ C) := fun _ _ => rfl
    cases y with
    | resize n =>
      have run : ∀ C p, step E (s.io (.resize n :: I ++ C) p) =
          (do let s ← onResize E (s.io (I ++ C) p) n; return (s, none)) := by
        intro C p; rw [step, hin]; rfl
      rw [run, onResize_io] at h
      cases hc : onResize E s n with
      | error e => rw [hc] at h; cases h
      | ok q =>
        rw [hc] at h
        injection h with h
        obtain ⟨rfl, rfl⟩ := Prod.ext_iff.mp h
        refine ⟨I, rfl, by simp, fun C p => ?_⟩
        rw [run, onResize_io, hc]
        show Except.ok (q.io (I ++ C) p, none) = .ok ((q.io (I ++ [x]) []).io (I ++ C) p, none)
        rw [io_io, List.append_nil]
    | err e =>
      have run : ∀ C p, step E (s.io (.err e :: I ++ C) p) =
          .ok ((deferred (s.emit .await)).io (I ++ C) p, some { text := [], err := .tty e }) := by
        intro C p
        rw [step, hin]
        show Except.ok (deferred { (s.io (.err e :: I ++ C) p).emit .await with input := I ++ C }, _) = _
        have : ({ (s.io (.err e :: I ++ C) p).emit .await with input := I ++ C } : St) = (s.emit .await).io (I ++ C) p := by
          rw [emit_io]; rfl
        rw [this]
        unfold deferred
        rw [emit_io, emit_io]
      rw [run] at h
      injection h with h
      obtain ⟨rfl, rfl⟩ := Prod.ext_iff.mp h
      refine ⟨I, rfl, by simp, fun C p => ?_⟩
      rw [run, io_io, List.append_nil]
    | key k =>
      have run : ∀ C p, step E (s.io (.key k :: I ++ C) p) =
          execCmd E (lookupCommand E k) ((s.emit .await).io (I ++ C) p) := by
        intro C p
        rw [step_key (hin C p)]
        have : ({ (s.io (.key k :: I ++ C) p).emit .await with input := I ++ C } : St) = (s.emit .await).io (I ++ C) p := by
          rw [emit_io]; rfl
        rw [this]
      rw [run] at h
      obtain ⟨I', g1, g2⟩ := execCmd_ahead (BuiltinKeys.builtin hb k) _ _ _ _ _ hx h hn
      refine ⟨I', g1, ?_, fun C p => by rw [run, g2]⟩
      have hs : s'.input.Sublist (I ++ [x]) :=
        step_key_sublist hb (hin [x] []) (by rw [run]; exact h)
      have := hs.length_le
      rw [g1] at this
      simp only [List.length_append, List.length_cons, List.length_nil] at this ⊢
      omega

theorem step_quiet {s s' : St} {o : Option RLRes} (hi : noResize s.input = []) (h : step E s = .ok (s', o)) :
    noResize s'.input = [] := by
  cases hs : s.input with
  | nil =>
    rw [step, hs] at h
    injection h with h
    obtain ⟨rfl, -⟩ := Prod.ext_iff.mp h
    show noResize s.input = []
    exact hi
  | cons y l =>
    rw [hs] at hi
    cases y with
    | key k => cases hi
    | err e => cases hi
    | resize n =>
      have := (step_resize_ed hs h).2
      have : s'.input = l := by
        have := congrArg Ed.input this; simp at this; exact this
      rw [this]
      exact hi

theorem loop_quiet {n : Nat} {s s' : St} {r : RLRes} (hi : noResize s.input = [])
    (h : loop E n s = .ok (s', r)) : noResize s'.input = [] := by
  induction n generalizing s with
  | zero => cases h
  | succ n ih =>
    rw [loop] at h
    obtain ⟨⟨s1, o⟩, h1, h⟩ := bind_ok.mp h
    have hq := step_quiet hi h1
    cases o with
    | none => exact ih hq h
    | some r' =>
      injection h with h
      obtain ⟨rfl, -⟩ := Prod.ext_iff.mp h
      exact hq

theorem loop_ahead (hb : BuiltinKeys E) {n : Nat} {s : St} {I : List Ev} {x : Ev} {s' : St} {r : RLRes}
    (hx : Ev.isKey x = true) (h : loop E n (s.io (I ++ [x]) []) = .ok (s', r))
    (hn : noResize s'.input ≠ []) :
    ∃ I', s'.input = I' ++ [x] ∧ ∀ C p m, (I ++ C).length < m →
      loop E m (s.io (I ++ C) p) = .ok (s'.io (I' ++ C) p, r) := by
  induction n generalizing s I with
  | zero => cases h
  | succ n ih =>
    rw [loop] at h
    obtain ⟨⟨s1, o⟩, h1, h⟩ := bind_ok.mp h
    have hq : noResize s1.input ≠ [] := by
      intro hq
      cases o with
      | none => exact hn (loop_quiet hq h)
      | some r' =>
        injection h with h
        obtain ⟨rfl, -⟩ := Prod.ext_iff.mp h
        exact hn hq
    obtain ⟨I1, g1, g2, g3⟩ := step_ahead hb hx h1 hq
    have run : ∀ C p m, loop E (m + 1) (s.io (I ++ C) p) = (match o with
        | some r => pure (s1.io (I1 ++ C) p, r)
        | none => loop E m (s1.io (I1 ++ C) p)) := by
      intro C p m
      rw [loop, g3]
      cases o <;> rfl
    cases o with
    | some r' =>
      injection h with h
      obtain ⟨rfl, rfl⟩ := Prod.ext_iff.mp h
      refine ⟨I1, g1, fun C p m hm => ?_⟩
      obtain ⟨m, rfl⟩ : ∃ m', m = m' + 1 := ⟨m - 1, by omega⟩
      rw [run]
      rfl
    | none =>
      have e : s1 = s1.io (I1 ++ [x]) [] := by rw [← g1]; rfl
      dsimp only at h
      rw [e] at h
      obtain ⟨I', f1, f2⟩ := ih h
      refine ⟨I', f1, fun C p m hm => ?_⟩
      obtain ⟨m, rfl⟩ : ∃ m', m = m' + 1 := ⟨m - 1, by omega⟩
      rw [run]
      refine f2 C p m ?_
      simp only [List.length_append] at hm ⊢
      omega

/-- A session that does not read the last event. -/
theorem readLine_ahead (hb : BuiltinKeys E) {I : List Ev} {x : Ev} {s' : St} {r : RLRes}
    (hx : Ev.isKey x = true) (h : readLine E { w with input := I ++ [x] } = .ok (s', r))
    (hn : noResize s'.input ≠ []) :
    ∃ I', s'.input = I' ++ [x] ∧ ∀ C, readLine E { w with input := I ++ C } = .ok (s'.io (I' ++ C) [], r) := by
  unfold readLine at h
  obtain ⟨s, h1, h⟩ := bind_ok.mp h
  have hs := startSt_io (E := E) w (I ++ [x]) []
  have e : ({ w with input := I ++ [x], out := [] ++ w.out } : World) = { w with input := I ++ [x] } := rfl
  rw [e, h1] at hs
  cases hq : startSt E w with
  | error e => rw [hq] at hs; cases hs
  | ok q =>
    rw [hq] at hs
    injection hs with hs
    dsimp only at hs
    subst hs
    obtain ⟨I', g1, g2⟩ := loop_ahead hb hx h hn
    refine ⟨I', g1, fun C => ?_⟩
    unfold readLine
    have hs := startSt_io (E := E) w (I ++ C) []
    have e : ({ w with input := I ++ C, out := [] ++ w.out } : World) = { w with input := I ++ C } := rfl
    rw [e, hq] at hs
    rw [hs]
    exact g2 C [] _ (Nat.lt_succ_self _)

end Readline
