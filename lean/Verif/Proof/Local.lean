import Verif.Proof.Shift
import Verif.Proof.Input
/-!
# A command reads a front part of the keys

A builtin command takes some keys from the front of the input, and does the same when resizes are
queued behind these keys.
-/
namespace Readline
open Spec

variable {E : Env} {i : List Ev} {p : List Tok}

theorem drawLoop_io (C : Cfg) (vw : Int) (ms : List Moji) (dw : Int) (s : St) :
    drawLoop C vw ms dw (s.io i p) = under1 i p (drawLoop C vw ms dw s) := by
  induction ms generalizing dw s with
  | nil => rfl
  | cons m ms ih =>
    unfold drawLoop
    refine under_ite Iff.rfl (fun _ => rfl) (fun _ => ?_)
    rw [printMoji_io]
    exact under_bind fun a => ih _ _

theorem isearchPrev_io (s : St) (it : ISt) (n : Nat) (j : Int) :
    isearchPrev E (s.io i p) it n j = under i p id (isearchPrev E s it n j) := by
  induction n generalizing j with
  | zero => rfl
  | succ n ih =>
    unfold isearchPrev
    refine under_ite Iff.rfl (fun _ => rfl) (fun _ => ?_)
    rw [histAt_io]
    refine under_bind fun line => ?_
    exact under_ite Iff.rfl (fun _ => rfl) (fun _ => ih _)

theorem isearchNext_io (s : St) (it : ISt) (n : Nat) (j : Int) :
    isearchNext E (s.io i p) it n j = under i p id (isearchNext E s it n j) := by
  induction n generalizing j with
  | zero => rfl
  | succ n ih =>
    unfold isearchNext
    refine under_ite Iff.rfl (fun _ => rfl) (fun _ => ?_)
    refine under_ite Iff.rfl (fun _ => rfl) (fun _ => ?_)
    rw [histAt_io]
    refine under_bind fun line => ?_
    exact under_ite Iff.rfl (fun _ => rfl) (fun _ => ih _)

theorem finish_io (s : St) (rc : Result) : finish E (s.io i p) rc = under2 i p (finish E s rc) := by
  unfold finish
  have h : (match (s.io i p).suffix with
      | some _ => repaintNoSuffix E { s.io i p with suffix := none }
      | none => pure (s.io i p)) = under1 i p (match s.suffix with
      | some _ => repaintNoSuffix E { s with suffix := none }
      | none => pure s) := by
    rw [io_suffix]
    split
    · exact repaintNoSuffix_io { s with suffix := none }
    · rfl
  refine (congrArg (· >>= _) h).trans (under_bind fun a => ?_)
  cases E.lineFeed with
  | none => dsimp only; unfold deferred; rw [emit_io, emit_io]; simp only [emit_io]; rfl
  | some f => dsimp only; unfold deferred; rw [emit_io, emit_io]; simp only [emit_io]; rfl

theorem finish_input' {s : St} {rc : Result} {z : St × RLRes} (h : finish E s rc = .ok z) :
    z.1.input = s.input := by
  have h1 := finish_io (E := E) (i := s.input) (p := []) s rc
  have h2 : s.io s.input [] = s := rfl
  rw [h2, h] at h1
  have h3 : z.1 = z.1.io s.input [] := by injection h1 with h1; exact (Prod.ext_iff.mp h1).1
  rw [h3]; rfl

/-- What a command that reads keys does only depends on the keys it took. -/
def Takes (f : St → M (St × α)) (s s' : St) (a : α) : Prop :=
  ∃ u, s.input = u ++ s'.input ∧
    ∀ C p, noResize C = s'.input → f (s.io (u ++ C) p) = .ok (s'.io C p, a)

theorem takes_io {f : St → M (St × α)} {s s' : St} {a : α}
    (h : ∀ i p, f (s.io i p) = under2 i p (f s)) (hf : f s = .ok (s', a)) : Takes f s s' a := by
  have h1 := h s.input []
  have h2 : s.io s.input [] = s := rfl
  rw [h2, hf] at h1
  have h3 : s' = s'.io s.input [] := by injection h1 with h1; exact (Prod.ext_iff.mp h1).1
  have h4 : s'.input = s.input := by rw [h3]; rfl
  refine ⟨[], h4.symm, fun C p _ => ?_⟩
  rw [List.nil_append, h, hf]
  rfl

theorem noResize_cons {x : Ev} {l : List Ev} (h : noResize (x :: l) = x :: l) : noResize l = l := by
  cases x with
  | resize w =>
    exfalso
    have : (noResize l).length ≤ l.length := by
      clear h
      induction l with
      | nil => exact Nat.le_refl _
      | cons y l ih => cases y <;> simp only [noResize, List.length_cons] <;> omega
    simp only [noResize] at h
    rw [h, List.length_cons] at this
    omega
  | key k => simpa [noResize] using h
  | err k => simpa [noResize] using h

theorem noResize_resize {w : Int} {l : List Ev} : noResize (.resize w :: l) ≠ .resize w :: l := by
  intro h
  have h2 : ∀ l, (Ev.resize w) ∉ noResize l := by
    intro l
    induction l with
    | nil => simp [noResize]
    | cons y l ih => cases y <;> simp [noResize, ih]
  exact h2 (.resize w :: l) (by rw [h]; exact List.mem_cons_self)

theorem popKey_nil {C : List Ev} (h : noResize C = []) : popKey C = none := by
  induction C with
  | nil => rfl
  | cons x C ih =>
    cases x with
    | resize w => rw [popKey, ih h]
    | key k => cases h
    | err k => cases h

theorem getKey_end {s : St} (h : s.input = []) {C : List Ev} (hC : noResize C = []) :
    getKey s = (none, s.emit .await) ∧ getKey (s.io C p) = (none, (s.emit .await).io C p) := by
  refine ⟨?_, ?_⟩
  · unfold getKey
    have : (s.emit .await).input = [] := h
    dsimp only
    rw [this]
    rfl
  · unfold getKey
    have : ((s.io C p).emit .await).input = C := rfl
    dsimp only
    rw [this, popKey_nil hC, emit_io]

theorem getKey_key {s : St} {k : Bytes} {rest : List Ev} (h : s.input = .key k :: rest) (C : List Ev) :
    getKey s = (some k, { s.emit .await with input := rest }) ∧
      getKey (s.io (.key k :: C) p) = (some k, ({ s.emit .await with input := rest } : St).io C p) := by
  refine ⟨?_, ?_⟩
  · unfold getKey
    have : (s.emit .await).input = .key k :: rest := h
    dsimp only
    rw [this]
    rfl
  · unfold getKey
    dsimp only
    rw [emit_io]
    rfl

theorem getKey_err {s : St} {k : Bytes} {rest : List Ev} (h : s.input = .err k :: rest) (C : List Ev) :
    getKey s = (none, { s.emit .await with input := rest }) ∧
      getKey (s.io (.err k :: C) p) = (none, ({ s.emit .await with input := rest } : St).io C p) := by
  refine ⟨?_, ?_⟩
  · unfold getKey
    have : (s.emit .await).input = .err k :: rest := h
    dsimp only
    rw [this]
    rfl
  · unfold getKey
    dsimp only
    rw [emit_io]
    rfl

theorem quotedInsert_takes {s s' : St} {r : Result} (hi : noResize s.input = s.input)
    (h : cmdQuotedInsert E s = .ok (s', r)) : Takes (cmdQuotedInsert E) s s' r := by
  have hin : (s.emit .cursorOn).input = s.input := rfl
  cases hs : s.input with
  | nil =>
    have hn : s'.input = [] ∧ s' = ((s.emit .cursorOn).emit .await).emit .cursorOff ∧ r = .cont := by
      unfold cmdQuotedInsert at h
      dsimp only at h
      rw [(getKey_end (p := []) (C := []) (s := s.emit .cursorOn) (hin.trans hs) rfl).1] at h
      injection h with h
      obtain ⟨rfl, rfl⟩ := Prod.ext_iff.mp h
      exact ⟨hs, rfl, rfl⟩
    obtain ⟨h1, rfl, rfl⟩ := hn
    refine ⟨[], hs.trans h1.symm, fun C p hC => ?_⟩
    unfold cmdQuotedInsert
    dsimp only
    rw [List.nil_append, emit_io, (getKey_end (s := s.emit .cursorOn) (hin.trans hs) (hC.trans h1)).2]
    dsimp only
    rw [emit_io]
    rfl
  | cons x rest =>
    cases x with
    | resize w => rw [hs] at hi; exact absurd hi noResize_resize
    | key k =>
      unfold cmdQuotedInsert at h
      dsimp only at h
      rw [(getKey_key (p := []) (s := s.emit .cursorOn) (hin.trans hs) []).1] at h
      dsimp only at h
      cases hc : cmdSelfInsert E k { (s.emit .cursorOn).emit .await with input := rest } with
      | error e => rw [hc] at h; cases h
      | ok q =>
        rw [hc] at h
        injection h with h
        obtain ⟨rfl, rfl⟩ := Prod.ext_iff.mp h
        obtain ⟨u, hu, H⟩ := takes_io (fun i p => cmdSelfInsert_io _ k) hc
        have hq : q.1.input = rest := by
          have h1 := cmdSelfInsert_io (E := E) (i := rest) (p := []) { (s.emit .cursorOn).emit .await with input := rest } k
          have h2 : ({ (s.emit .cursorOn).emit .await with input := rest } : St).io rest [] =
            { (s.emit .cursorOn).emit .await with input := rest } := rfl
          rw [h2, hc] at h1
          injection h1 with h1
          have h3 := (Prod.ext_iff.mp h1).1
          dsimp only at h3
          rw [h3]
          rfl
        refine ⟨[.key k], ?_, fun C p hC => ?_⟩
        · show s.input = .key k :: q.1.input
          rw [hq, hs]
        · unfold cmdQuotedInsert
          dsimp only
          rw [emit_io]
          rw [show [Ev.key k] ++ C = .key k :: C from rfl]
          rw [(getKey_key (s := s.emit .cursorOn) (hin.trans hs) C).2]
          dsimp only
          rw [cmdSelfInsert_io, hc]
          show Except.ok ((q.1.io C p).emit .cursorOff, q.2) = _
          rw [emit_io]
    | err k =>
      unfold cmdQuotedInsert at h
      dsimp only at h
      rw [(getKey_err (p := []) (s := s.emit .cursorOn) (hin.trans hs) []).1] at h
      injection h with h
      obtain ⟨rfl, rfl⟩ := Prod.ext_iff.mp h
      refine ⟨[.err k], hs, fun C p hC => ?_⟩
      unfold cmdQuotedInsert
      dsimp only
      rw [emit_io]
      rw [show [Ev.err k] ++ C = .err k :: C from rfl]
      rw [(getKey_err (s := s.emit .cursorOn) (hin.trans hs) C).2]
      dsimp only
      rw [emit_io]
      rfl

/-- The round of the incremental search after a key was read. -/
def isearchKey (E : Env) (fuel : Nat) (it : ISt) (key : Bytes) (s : St) : M (St × Result) := do
  let s := s.emit .cursorOff
  let s := gotoHead s
  if key = [0x08] ∨ key = [0x7F] then
    let it := { it with search := chopLast it.search }
    isearchLoop E fuel (isearchUpdate E it E.history.length) s
  else if key = [0x0D] then
    let s := { s with viewStart := 0,
                      undoes := { pos := 0, del := 0, text := s.text } :: s.undoes,
                      buf := [], cursor := 0 }
    let s ← replaceAndRepaint E s 0 it.found
    return (s, .cont)
  else if key = [0x03] ∨ key = [0x07] ∨ key = [0x1B] then
    let (n, _) ← getView2 E s
    let s ← puts E s s.viewStart (s.viewStart + n)
    let s := eraseline s
    let s := gotoHead s
    let s ← puts E s s.viewStart s.cursor
    return (s, .cont)
  else if key = [0x12] then
    let it ← isearchPrev E s it (E.history.length + 2) (it.lastPos - 1)
    isearchLoop E fuel it s
  else if key = [0x13] then
    let it ← isearchNext E s it (E.history.length + 2) (it.lastPos + 1)
    isearchLoop E fuel it s
  else
    let charcode := (decodeRune key).1
    if isControlRune charcode then isearchLoop E fuel it s
    else
      let it := { it with search := it.search ++ encodeRune charcode }
      isearchLoop E fuel (isearchUpdate E it E.history.length) s

/-- What is drawn before a key is read. -/
def isearchShow (E : Env) (it : ISt) (s : St) : M St := do
  let s ← drawLoop E.cfg s.viewWidth (stringToMoji E.cfg (isearchDraw it)) 0 s
  return (eraseline s).emit .cursorOn

theorem isearchLoop_succ (E : Env) (fuel : Nat) (it : ISt) (s : St) :
    isearchLoop E (fuel + 1) it s = (do
      let s ← isearchShow E it s
      match getKey s with
      | (none, s) => return (s, .cont)
      | (some key, s) => isearchKey E fuel it key s) := by
  rw [isearchLoop]
  unfold isearchShow
  cases drawLoop E.cfg s.viewWidth (stringToMoji E.cfg (isearchDraw it)) 0 s <;> rfl

theorem isearchShow_io (it : ISt) (s : St) :
    isearchShow E it (s.io i p) = under1 i p (isearchShow E it s) := by
  unfold isearchShow
  rw [io_viewWidth, drawLoop_io]
  refine under_bind fun a => ?_
  rw [eraseline_io, emit_io]
  rfl

theorem isearchShow_input {it : ISt} {s s' : St} (h : isearchShow E it s = .ok s') : s'.input = s.input := by
  have h1 := isearchShow_io (E := E) (i := s.input) (p := []) it s
  have h2 : s.io s.input [] = s := rfl
  rw [h2, h] at h1
  have h3 : s' = s'.io s.input [] := by injection h1
  rw [h3]; rfl

/-- A round of the search either goes on with the next round or ends the command; what it does
does not depend on the input. -/
theorem isearchKey_cases (it : ISt) (key : Bytes) (s : St) :
    (∃ it' t, (∀ fuel, isearchKey E fuel it key s = isearchLoop E fuel it' t) ∧ t.input = s.input ∧
      ∀ i p fuel, isearchKey E fuel it key (s.io i p) = isearchLoop E fuel it' (t.io i p)) ∨
    (∃ y : M (St × Result), (∀ fuel, isearchKey E fuel it key s = y) ∧
      ∀ i p fuel, isearchKey E fuel it key (s.io i p) = under2 i p y) := by
  have hg : ∀ i p, gotoHead ((s.io i p).emit .cursorOff) = (gotoHead (s.emit .cursorOff)).io i p := by
    intro i p; rw [emit_io, gotoHead_io]
  have hgi : (gotoHead (s.emit .cursorOff)).input = s.input := rfl
  unfold isearchKey
  dsimp only
  simp only [hg]
  generalize gotoHead (s.emit .cursorOff) = t at hgi ⊢
  by_cases h1 : key = [0x08] ∨ key = [0x7F]
  · simp only [if_pos h1]
    exact .inl ⟨_, t, fun _ => rfl, hgi, fun _ _ _ => rfl⟩
  · simp only [if_neg h1]
    by_cases h2 : key = [0x0D]
    · simp only [if_pos h2]
      refine .inr ⟨_, fun _ => rfl, fun i p _ => ?_⟩
      have h := replaceAndRepaint_io (E := E) (i := i) (p := p) { t with
        viewStart := 0, undoes := { pos := 0, del := 0, text := t.text } :: t.undoes, buf := [], cursor := 0 } 0 it.found
      exact (congrArg (· >>= _) h).trans (under_bind fun _ => rfl)
    · simp only [if_neg h2]
      by_cases h3 : key = [0x03] ∨ key = [0x07] ∨ key = [0x1B]
      · simp only [if_pos h3]
        refine .inr ⟨_, fun _ => rfl, fun i p _ => ?_⟩
        rw [getView2_io]
        refine under_bind fun n => ?_
        obtain ⟨n, x⟩ := n
        simp only [id, io_viewStart]
        rw [puts_io]
        refine under_bind fun t => ?_
        rw [eraseline_io, gotoHead_io]
        simp only [io_viewStart, io_cursor]
        rw [puts_io]
        exact under_bind fun _ => rfl
      · simp only [if_neg h3]
        by_cases h4 : key = [0x12]
        · simp only [if_pos h4]
          cases hx : isearchPrev E t it (E.history.length + 2) (it.lastPos - 1) with
          | ok it' =>
            refine .inl ⟨it', t, fun _ => rfl, hgi, fun i p fuel => ?_⟩
            rw [isearchPrev_io, hx]; rfl
          | error e =>
            refine .inr ⟨.error e, fun _ => rfl, fun i p fuel => ?_⟩
            rw [isearchPrev_io, hx]; rfl
        · simp only [if_neg h4]
          by_cases h5 : key = [0x13]
          · simp only [if_pos h5]
            cases hx : isearchNext E t it (E.history.length + 2) (it.lastPos + 1) with
            | ok it' =>
              refine .inl ⟨it', t, fun _ => rfl, hgi, fun i p fuel => ?_⟩
              rw [isearchNext_io, hx]; rfl
            | error e =>
              refine .inr ⟨.error e, fun _ => rfl, fun i p fuel => ?_⟩
              rw [isearchNext_io, hx]; rfl
          · simp only [if_neg h5]
            by_cases h6 : isControlRune (decodeRune key).1
            · simp only [if_pos h6]
              exact .inl ⟨it, t, fun _ => rfl, hgi, fun _ _ _ => rfl⟩
            · simp only [if_neg h6]
              exact .inl ⟨_, t, fun _ => rfl, hgi, fun _ _ _ => rfl⟩

theorem isearchLoop_takes (n : Nat) (it : ISt) {s s' : St} {r : Result} (hi : noResize s.input = s.input)
    (h : isearchLoop E n it s = .ok (s', r)) :
    ∃ u, s.input = u ++ s'.input ∧ ∀ C p m, noResize C = s'.input → (u ++ C).length < m →
      isearchLoop E m it (s.io (u ++ C) p) = .ok (s'.io C p, r) := by
  induction n generalizing it s with
  | zero => cases h
  | succ n ih =>
    rw [isearchLoop_succ] at h
    cases hd : isearchShow E it s with
    | error e => rw [hd] at h; cases h
    | ok s1 =>
      rw [hd] at h
      have hs1 := isearchShow_input hd
      have hd' : ∀ i p, isearchShow E it (s.io i p) = .ok (s1.io i p) := by
        intro i p; rw [isearchShow_io, hd]; rfl
      have hrun : ∀ i p m, isearchLoop E (m + 1) it (s.io i p) =
          (match getKey (s1.io i p) with
          | (none, s) => pure (s, Result.cont)
          | (some key, s) => isearchKey E m it key s) := by
        intro i p m; rw [isearchLoop_succ, hd']; rfl
      cases hs : s.input with
      | nil =>
        change (match getKey s1 with
          | (none, s) => pure (s, Result.cont)
          | (some key, s) => isearchKey E n it key s) = _ at h
        rw [(getKey_end (p := []) (C := []) (hs1.trans hs) rfl).1] at h
        injection h with h
        obtain ⟨rfl, rfl⟩ := Prod.ext_iff.mp h
        have h1 : (s1.emit .await).input = [] := hs1.trans hs
        refine ⟨[], h1.symm, fun C p m hC hm => ?_⟩
        obtain ⟨m, rfl⟩ : ∃ m', m = m' + 1 := ⟨m - 1, by simp only [List.nil_append] at hm; omega⟩
        rw [hrun, List.nil_append, (getKey_end (hs1.trans hs) (hC.trans h1)).2]
        rfl
      | cons x rest =>
        cases x with
        | resize w => rw [hs] at hi; exact absurd hi noResize_resize
        | err k =>
          change (match getKey s1 with
            | (none, s) => pure (s, Result.cont)
            | (some key, s) => isearchKey E n it key s) = _ at h
          rw [(getKey_err (p := []) (hs1.trans hs) []).1] at h
          injection h with h
          obtain ⟨rfl, rfl⟩ := Prod.ext_iff.mp h
          refine ⟨[.err k], rfl, fun C p m hC hm => ?_⟩
          obtain ⟨m, rfl⟩ : ∃ m', m = m' + 1 := ⟨m - 1, by simp only [List.length_append] at hm; omega⟩
          rw [hrun]
          rw [show [Ev.err k] ++ C = .err k :: C from rfl]
          rw [(getKey_err (hs1.trans hs) C).2]
          rfl
        | key k =>
          change (match getKey s1 with
            | (none, s) => pure (s, Result.cont)
            | (some key, s) => isearchKey E n it key s) = _ at h
          rw [(getKey_key (p := []) (hs1.trans hs) []).1] at h
          dsimp only at h
          have hrest : noResize rest = rest := noResize_cons (hs ▸ hi)
          rcases isearchKey_cases (E := E) it k ({ s1.emit .await with input := rest }) with
            ⟨it', t, ht, hti, hio⟩ | ⟨y, hy, hio⟩
          · rw [ht] at h
            have hti' : t.input = rest := hti
            obtain ⟨u, hu, H⟩ := ih it' (s := t) (by rw [hti']; exact hrest) h
            refine ⟨.key k :: u, by rw [List.cons_append, ← hu, hti'], fun C p m hC hm => ?_⟩
            obtain ⟨m, rfl⟩ : ∃ m', m = m' + 1 := ⟨m - 1, by simp only [List.length_append, List.length_cons] at hm; omega⟩
            rw [hrun, List.cons_append, (getKey_key (hs1.trans hs) (u ++ C)).2]
            dsimp only
            rw [hio]
            refine H C p m hC ?_
            simp only [List.length_append, List.length_cons] at hm ⊢
            omega
          · rw [hy] at h
            have hin : s'.input = rest := by
              have h1 := hio rest [] n
              have h2 : ({ s1.emit .await with input := rest } : St).io rest [] = { s1.emit .await with input := rest } := rfl
              rw [h2, hy, h] at h1
              have h3 : s' = s'.io rest [] := by injection h1 with h1; exact (Prod.ext_iff.mp h1).1
              rw [h3]; rfl
            refine ⟨[.key k], by rw [hin]; rfl, fun C p m hC hm => ?_⟩
            obtain ⟨m, rfl⟩ : ∃ m', m = m' + 1 := ⟨m - 1, by simp only [List.length_append] at hm; omega⟩
            rw [hrun]
            rw [show [Ev.key k] ++ C = .key k :: C from rfl]
            rw [(getKey_key (hs1.trans hs) C).2]
            dsimp only
            rw [hio, h]
            rfl

theorem isearch_takes {s s' : St} {r : Result} (hi : noResize s.input = s.input)
    (h : cmdISearchBackward E s = .ok (s', r)) : Takes (cmdISearchBackward E) s s' r := by
  unfold cmdISearchBackward at h
  obtain ⟨u, hu, H⟩ := isearchLoop_takes (s := gotoHead s) _ _ hi h
  refine ⟨u, hu, fun C p hC => ?_⟩
  unfold cmdISearchBackward
  rw [gotoHead_io]
  exact H C p _ hC (Nat.lt_succ_self _)

/-- Every builtin command takes some keys from the front of the input. -/
theorem call_takes {c : Cmd} (hb : c.builtin = true) {s s' : St} {r : Result}
    (hi : noResize s.input = s.input) (h : Cmd.call E c s = .ok (s', r)) :
    Takes (Cmd.call E c) s s' r := by
  cases c with
  | acceptLine => exact takes_io (f := Cmd.call E .acceptLine) (fun _ _ => rfl) h
  | interrupt => exact takes_io (f := Cmd.call E .interrupt) (fun _ _ => rfl) h
  | beginningOfLine => exact takes_io (f := Cmd.call E .beginningOfLine) (fun _ _ => cmdBeginningOfLine_io _) h
  | backwardChar => exact takes_io (f := Cmd.call E .backwardChar) (fun _ _ => cmdBackwardChar_io _) h
  | endOfLine => exact takes_io (f := Cmd.call E .endOfLine) (fun _ _ => cmdEndOfLine_io _) h
  | forwardChar => exact takes_io (f := Cmd.call E .forwardChar) (fun _ _ => cmdForwardChar_io _) h
  | backwardDeleteChar => exact takes_io (f := Cmd.call E .backwardDeleteChar) (fun _ _ => cmdBackwardDeleteChar_io _) h
  | deleteChar => exact takes_io (f := Cmd.call E .deleteChar) (fun _ _ => cmdDeleteChar_io _) h
  | deleteOrAbort => exact takes_io (f := Cmd.call E .deleteOrAbort) (fun _ _ => cmdDeleteOrAbort_io _) h
  | killLine => exact takes_io (f := Cmd.call E .killLine) (fun _ _ => cmdKillLine_io _) h
  | killWholeLine => exact takes_io (f := Cmd.call E .killWholeLine) (fun _ _ => cmdKillWholeLine_io _) h
  | unixWordRubout => exact takes_io (f := Cmd.call E .unixWordRubout) (fun _ _ => cmdUnixWordRubout_io _) h
  | unixLineDiscard => exact takes_io (f := Cmd.call E .unixLineDiscard) (fun _ _ => cmdUnixLineDiscard_io _) h
  | clearScreen => exact takes_io (f := Cmd.call E .clearScreen) (fun _ _ => cmdClearScreen_io _) h
  | repaintOnNewline => exact takes_io (f := Cmd.call E .repaintOnNewline) (fun _ _ => cmdRepaintOnNewline_io _) h
  | quotedInsert => exact quotedInsert_takes hi h
  | yank => exact takes_io (f := Cmd.call E .yank) (fun _ _ => cmdYank_io _) h
  | yankWithQuote => exact takes_io (f := Cmd.call E .yankWithQuote) (fun _ _ => cmdYankWithQuote_io _) h
  | swapChar => exact takes_io (f := Cmd.call E .swapChar) (fun _ _ => cmdSwapChar_io _) h
  | backwardWord => exact takes_io (f := Cmd.call E .backwardWord) (fun _ _ => cmdBackwardWord_io _) h
  | forwardWord => exact takes_io (f := Cmd.call E .forwardWord) (fun _ _ => cmdForwardWord_io _) h
  | undo => exact takes_io (f := Cmd.call E .undo) (fun _ _ => cmdUndo_io _) h
  | previousHistory => exact takes_io (f := Cmd.call E .previousHistory) (fun _ _ => cmdPreviousHistory_io _) h
  | nextHistory => exact takes_io (f := Cmd.call E .nextHistory) (fun _ _ => cmdNextHistory_io _) h
  | isearchBackward => exact isearch_takes hi h
  | selfInsert k => exact takes_io (f := Cmd.call E (.selfInsert k)) (fun _ _ => cmdSelfInsert_io _ k) h
  | completion P => exact takes_io (f := Cmd.call E (.completion P)) (fun _ _ => cmdComplete_io P _) h
  | custom f => cases hb

theorem execCmd_takes {c : Cmd} (hb : c.builtin = true) {s s' : St} {o : Option RLRes}
    (hi : noResize s.input = s.input) (h : execCmd E c s = .ok (s', o)) :
    Takes (execCmd E c) s s' o := by
  unfold execCmd at h
  dsimp only at h
  cases hc : Cmd.call E c (s.emit .cursorOff) with
  | error e => rw [hc] at h; cases h
  | ok q =>
    obtain ⟨q, rc⟩ := q
    rw [hc] at h
    obtain ⟨u, hu, H⟩ := call_takes (s := s.emit .cursorOff) hb hi hc
    have hrun : ∀ C p, noResize C = q.input → execCmd E c (s.io (u ++ C) p) =
        (match rc with
        | .cont => .ok (((q.emit .cursorOn).io C p), none)
        | rc => do
          let (s, r) ← finish E ((q.emit .cursorOn).io C p) rc
          return (s, some r)) := by
      intro C p hC
      unfold execCmd
      dsimp only
      rw [emit_io, H C p hC]
      show (match rc with
        | .cont => Except.ok ((q.io C p).emit .cursorOn, none)
        | rc => do
          let (s, r) ← finish E ((q.io C p).emit .cursorOn) rc
          return (s, some r)) = _
      rw [emit_io]
      cases rc <;> rfl
    cases rc with
    | cont =>
      injection h with h
      obtain ⟨rfl, rfl⟩ := Prod.ext_iff.mp h
      exact ⟨u, hu, fun C p hC => hrun C p hC⟩
    | _ =>
      change (do
          let (s, r) ← finish E (q.emit .cursorOn) _
          return (s, some r)) = _ at h
      cases hf : finish E (q.emit .cursorOn) _ with
      | error e => rw [hf] at h; cases h
      | ok z =>
        rw [hf] at h
        injection h with h
        obtain ⟨rfl, rfl⟩ := Prod.ext_iff.mp h
        have hz : z.1.input = q.input := (finish_input' hf :)
        refine ⟨u, by rw [hz]; exact hu, fun C p hC => ?_⟩
        rw [hrun C p (hC.trans hz)]
        dsimp only
        rw [finish_io, hf]
        rfl

end Readline
