import Verif.Proof.Waits
import Verif.Proof.Invariant
import Verif.Props.C01
import Verif.Props.C03
import Verif.Model.GetKey
/-!
# C44: a scripted session terminates

The Go loops that have no obvious bound (`ReadLine` itself and the three loops of the incremental
search) are modelled with fuel, and running out of it is the panic `.diverge`.

* `C44_halts`: no session of built-in commands runs out of fuel, whatever the input.
* `C44_order`: at every moment the keys not yet taken are a tail of the script.
* `C44_pilot_partial`: a session driven by `auto.Pilot` ends, returning something else than an
  error of the Tty, or by a panic.  At most two of the endless carriage returns are taken.
* `C44_calm_partial`: with the conditions of C01 the only possible panics are those for want of
  room.
* `C44_refuted`: the script of C01 does not return but panics.
-/
namespace Readline
open Spec

/-! ## Termination and order -/

theorem loop_halts {E : Env} (hb : BuiltinKeys E) (n : Nat) (s : St) (hn : s.input.length < n) :
    Wp Halts (loop E n s) (fun _ => True) := by
  induction n generalizing s with
  | zero => omega
  | succ n ih =>
    rw [loop]
    cases h1 : step E s with
    | error p => exact (step_says (BuiltinKeys.builtin hb) s).error h1
    | ok q =>
      obtain ⟨s1, o⟩ := q
      cases o with
      | some r => exact Wp.pure trivial
      | none => exact ih s1 (by have := step_input hb h1; omega)

/-- **C44**, every session ends: `readLine` returns or panics, it never runs out of fuel. -/
theorem C44_halts {E : Env} {w : World} {p : Panic} (hb : BuiltinKeys E)
    (h : readLine E w = .error p) : p.kind ≠ .diverge := by
  have : Wp Halts (readLine E w) (fun _ => True) := by
    unfold readLine
    exact Wp.seq (startSt_talk true w) fun s _ => loop_halts hb _ s (Nat.lt_succ_self _)
  exact this.error h

/-- **C44**, the keys are consumed in order. -/
theorem C44_order {E : Env} {w : World} {s : St} (hb : BuiltinKeys E) (h : Reachable E w s) :
    ∃ used, noResize w.input = used ++ noResize s.input :=
  (reachable_says (BuiltinKeys.builtin hb) true h).keys

/-! ## auto.Pilot -/

/-- The first `n` keys that `(*Pilot).GetKey` returns. -/
def Spec.pilotKeys : Nat → List Bytes → List Bytes
  | 0, _ => []
  | n + 1, text => (pilotGetKey text).1 :: pilotKeys n (pilotGetKey text).2

/-- The keys of a Pilot are its script and then carriage returns. -/
theorem pilotKeys_eq (n : Nat) (text : List Bytes) :
    pilotKeys (text.length + n) text = text ++ List.replicate n [0x0D] := by
  induction text with
  | nil =>
    induction n with
    | zero => rfl
    | succ n ih =>
      rw [List.length_nil, Nat.zero_add] at *
      rw [pilotKeys, List.replicate_succ]
      exact congrArg _ ih
  | cons k text ih =>
    rw [show (k :: text).length + n = (text.length + n) + 1 by simp; omega, pilotKeys]
    exact congrArg _ ih

namespace Ed
variable {L : Logic}

/-- The keys left: some of the script and `m` carriage returns, or only one carriage return
less. -/
def Left (m : Nat) (l : List Ev) : Prop :=
  (∃ a : List Bytes, l = a.map .key ++ List.replicate m (.key [0x0D])) ∨
    l = List.replicate (m - 1) (.key [0x0D])

theorem getKey_of {e : Ed} {k : Bytes} {l : List Ev} (h : noResize e.input = .key k :: l) :
    (getKey e).1 = some k ∧ noResize (getKey e).2.input = l := by
  unfold getKey
  cases hp : popKey e.input with
  | none =>
    exfalso
    have : ∀ evs : List Ev, popKey evs = none → noResize evs = [] := by
      intro evs
      induction evs with
      | nil => intro _; rfl
      | cons x evs ih =>
        cases x with
        | resize w =>
          intro h
          rw [popKey] at h
          cases hq : popKey evs with
          | none => exact ih hq
          | some q => rw [hq] at h; cases h
        | key k => intro h; simp [popKey] at h
        | err k => intro h; simp [popKey] at h
    rw [this _ hp] at h
    cases h
  | some q =>
    obtain ⟨ev, rest⟩ := q
    obtain ⟨h1, -, -⟩ := popKey_noResize hp
    rw [h] at h1
    injection h1 with h2 h3
    subst h2
    exact ⟨rfl, h3.symm⟩

theorem searchLoop_left (n : Nat) (it : ISt) (e : Ed) (a : List Bytes) (m : Nat)
    (h : noResize e.input = a.map .key ++ List.replicate (m + 1) (.key [0x0D])) :
    Left (m + 1) (noResize (searchLoop L n it e).input) := by
  induction n generalizing it e a with
  | zero => exact Or.inl ⟨a, h⟩
  | succ n ih =>
    rw [searchLoop]
    cases a with
    | nil =>
      have h : noResize e.input = .key [0x0D] :: List.replicate m (.key [0x0D]) := by
        rw [h, List.replicate_succ]; rfl
      obtain ⟨h1, h2⟩ := getKey_of h
      generalize getKey e = g at *
      obtain ⟨k, e1⟩ := g
      cases h1
      dsimp only at h2 ⊢
      rw [if_neg (by decide), if_pos rfl, replace_input]
      exact Or.inr h2
    | cons k a =>
      obtain ⟨h1, h2⟩ := getKey_of (l := a.map .key ++ List.replicate (m + 1) (.key [0x0D])) h
      generalize getKey e = g at *
      obtain ⟨k, e1⟩ := g
      cases h1
      dsimp only at h2 ⊢
      split
      · exact ih _ _ a h2
      · split
        · rw [replace_input]; exact Or.inl ⟨a, h2⟩
        · split
          · exact Or.inl ⟨a, h2⟩
          · split
            · exact ih _ _ a h2
            · split
              · exact ih _ _ a h2
              · split
                · exact ih _ _ a h2
                · exact ih _ _ a h2

theorem call_left (c : Cmd) (e : Ed) (a : List Bytes) (m : Nat)
    (h : noResize e.input = a.map .key ++ List.replicate (m + 1) (.key [0x0D])) :
    Left (m + 1) (noResize (call L c e).1.input) := by
  by_cases hq : c = .quotedInsert
  · subst hq
    show Left _ (noResize (match getKey e with | (some k, e) => type L e k | (none, e) => e : Ed).input)
    cases a with
    | nil =>
      have h : noResize e.input = .key [0x0D] :: List.replicate m (.key [0x0D]) := by
        rw [h, List.replicate_succ]; rfl
      obtain ⟨h1, h2⟩ := getKey_of h
      generalize getKey e = g at *
      obtain ⟨k, e1⟩ := g
      cases h1
      dsimp only at h2 ⊢
      rw [type_input']
      exact Or.inr h2
    | cons k a =>
      obtain ⟨h1, h2⟩ := getKey_of (l := a.map .key ++ List.replicate (m + 1) (.key [0x0D])) h
      generalize getKey e = g at *
      obtain ⟨k, e1⟩ := g
      cases h1
      dsimp only at h2 ⊢
      rw [type_input']
      exact Or.inl ⟨a, h2⟩
  · by_cases hs : c = .isearchBackward
    · subst hs
      exact searchLoop_left _ _ _ a m h
    · rw [call_same_input c hq hs]
      exact Or.inl ⟨a, h⟩

end Ed

open Ed (Left) in
theorem reachable_left {E : Env} {w : World} {s : St} {text : List Bytes} {n : Nat}
    (hb : BuiltinKeys E) (hcr : lookupCommand E [0x0D] = .acceptLine) (hn : 2 ≤ n)
    (hw : noResize w.input = (text ++ List.replicate n [0x0D]).map .key) (h : Reachable E w s) :
    Left n (noResize s.input) := by
  induction h with
  | start h =>
    rw [startSt_input h, hw]
    exact Or.inl ⟨text, by simp⟩
  | @step s s' _ hst ih =>
    rcases step_cases hst with ⟨z, rest, hi⟩ | ⟨k, rest, hi⟩
    · obtain ⟨-, he⟩ := step_resize_ed hi hst
      have e1 : s'.input = rest := by
        have := congrArg Ed.input he
        simp at this
        exact this
      rw [e1]
      rw [hi] at ih
      exact ih
    · obtain ⟨m, rfl⟩ : ∃ m, n = m + 1 := ⟨n - 1, by omega⟩
      obtain ⟨m', rfl⟩ : ∃ m', m = m' + 1 := ⟨m - 1, by omega⟩
      rw [hi] at ih
      have hk : ∀ l, Ev.key k :: noResize rest = List.replicate (l + 1) (.key [0x0D]) → False := by
        intro l e
        rw [List.replicate_succ] at e
        injection e with e1 e2
        injection e1 with e1
        rw [e1] at hi
        have := ((step_key_ed hi hcr rfl hst).2 (by simp [Ed.call])).1
        cases this
      rcases ih with ⟨a, ha⟩ | h0
      · have ha : Ev.key k :: noResize rest = a.map .key ++ List.replicate (m' + 1 + 1) (.key [0x0D]) := ha
        cases a with
        | nil => exact absurd ha (fun e => hk _ e)
        | cons k' a =>
          injection ha with e1 e2
          have hc := Ed.call_left (L := E.logic) (lookupCommand E k) { s.ed with input := rest } a _ e2
          obtain ⟨h1, h2⟩ := step_key_ed hi rfl (BuiltinKeys.builtin hb k) hst
          have hcont : (Ed.call E.logic (lookupCommand E k) { s.ed with input := rest }).2 = .cont := by
            by_cases hx : (Ed.call E.logic (lookupCommand E k) { s.ed with input := rest }).2 = .cont
            · exact hx
            · have := (h2 hx).1
              simp at this
          obtain ⟨-, h1⟩ := h1 hcont
          have : s'.input = (Ed.call E.logic (lookupCommand E k) { s.ed with input := rest }).1.input := by
            rcases h1 with he | ⟨-, he⟩
            · exact congrArg Ed.input he
            · have := congrArg Ed.input he; simp at this; exact this
          rw [this]
          exact hc
      · exact absurd h0 (fun e => hk _ e)

/-- **C44** for `auto.Pilot`: the keys are those of the Pilot (`pilotKeys`), with as many of the
endless carriage returns as one likes, but at least two, and resizes in between; Enter is
bound to AcceptLine.  Then the session panics, or it returns with no error, `CtrlC` or
end of file, and never asks for more keys than there are: when the last step begins, at least
all but one of the carriage returns are still there. -/
theorem C44_pilot_partial {E : Env} {w : World} {text : List Bytes} {n : Nat}
    (hb : BuiltinKeys E) (hcr : lookupCommand E [0x0D] = .acceptLine) (hn : 2 ≤ n)
    (hw : noResize w.input = (pilotKeys (text.length + n) text).map .key) :
    (∃ p, readLine E w = .error p ∧ p.kind ≠ .diverge) ∨
    (∃ s r t, readLine E w = .ok (s, r) ∧ (∀ e, r.err ≠ .tty e) ∧
      Reachable E w t ∧ step E t = .ok (s, some r) ∧ n - 1 ≤ (noResize t.input).length) := by
  rw [pilotKeys_eq] at hw
  cases h : readLine E w with
  | error p => exact Or.inl ⟨p, rfl, C44_halts hb h⟩
  | ok q =>
    obtain ⟨s, r⟩ := q
    obtain ⟨t, ht, hst⟩ := readLine_reachable h
    have hl := reachable_left hb hcr hn hw ht
    have hlen : n - 1 ≤ (noResize t.input).length := by
      rcases hl with ⟨a, ha⟩ | ha
      · rw [ha]; simp; omega
      · rw [ha]; simp
    refine Or.inr ⟨s, r, t, rfl, ?_, ht, hst, hlen⟩
    intro e he
    have hends := step_ends hb hst
    cases hends with
    | enter hi hc => cases he
    | interrupt hi hc => cases he
    | eof hi hc hu => cases he
    | error hi =>
      rw [hi] at hl
      rcases hl with ⟨a, ha⟩ | ha
      · have : ∀ x ∈ a.map Ev.key ++ List.replicate n (.key [0x0D]), ∃ k, x = Ev.key k := by
          intro x hx
          simp only [List.mem_append, List.mem_map, List.mem_replicate] at hx
          rcases hx with ⟨k, -, rfl⟩ | ⟨-, rfl⟩ <;> exact ⟨_, rfl⟩
        obtain ⟨k, hk⟩ := this (.err e) (by
          rw [← ha]
          cases he
          simp [noResize])
        cases hk
      · obtain ⟨m, hm⟩ : ∃ m, n - 1 = m + 1 := ⟨n - 2, by omega⟩
        rw [hm, List.replicate_succ] at ha
        cases ha
    | exhausted hi =>
      rw [hi] at hlen
      have : (noResize []).length = 0 := rfl
      omega

/-- **C44** with the conditions of C01: a Pilot session returns unless the screen is too narrow,
a tab stands beyond the column 32767, or the candidates of a completion command make it panic. -/
theorem C44_calm_partial {E : Env} {w : World} {text : List Bytes} {n : Nat}
    (hb : BuiltinKeys E) (hcr : lookupCommand E [0x0D] = .acceptLine) (hn : 2 ≤ n)
    (hw : noResize w.input = (pilotKeys (text.length + n) text).map .key) (hc : 0 ≤ w.cursor)
    (hcalm : ∀ s, Reachable E w s → Calm E s) :
    (∃ s r, readLine E w = .ok (s, r) ∧ ∀ e, r.err ≠ .tty e) ∨
    (∃ p, readLine E w = .error p ∧
      ((p.kind = .bounds ∧ p.st.narrow E.cfg) ∨ (p.kind = .tabPos ∧ TabBad E p.st) ∨
        ∃ k, p.crash (lookupCommand E k))) := by
  rcases C44_pilot_partial hb hcr hn hw with ⟨p, hp, -⟩ | ⟨s, r, t, h, he, -⟩
  · exact Or.inr ⟨p, hp, C01_partial hb hc hcalm hp⟩
  · exact Or.inl ⟨s, r, h, he⟩

/-- The same without Undo keys, whatever else is typed. -/
theorem C44_no_undo_partial {E : Env} {w : World} {text : List Bytes} {n : Nat}
    (hb : BuiltinKeys E) (hcr : lookupCommand E [0x0D] = .acceptLine) (hn : 2 ≤ n)
    (hw : noResize w.input = (pilotKeys (text.length + n) text).map .key) (hc : 0 ≤ w.cursor)
    (hu : ∀ k, .key k ∈ w.input → lookupCommand E k ≠ .undo) :
    (∃ s r, readLine E w = .ok (s, r) ∧ ∀ e, r.err ≠ .tty e) ∨
    (∃ p, readLine E w = .error p ∧
      ((p.kind = .bounds ∧ p.st.narrow E.cfg) ∨ (p.kind = .tabPos ∧ TabBad E p.st) ∨
        ∃ k, p.crash (lookupCommand E k))) := by
  rcases C44_pilot_partial hb hcr hn hw with ⟨p, hp, -⟩ | ⟨s, r, t, h, he, -⟩
  · exact Or.inr ⟨p, hp, C01_no_undo_partial hb hc hu hp⟩
  · exact Or.inl ⟨s, r, h, he⟩

section
open Example

/-- The script that makes the editor panic also makes a Pilot session panic. -/
theorem C44_refuted : outcome (readLine (env plain)
    { input := (pilotKeys 6 [b "a", b "b", b "\x14", b "\x1a"]).map .key }) = .inl .bounds := by
  decide +kernel

/-- The default bindings satisfy the hypotheses. -/
example : lookupCommand (env plain) [0x0D] = .acceptLine := rfl

/-- A script that ends inside a quoted insert takes two carriage returns. -/
example : outcome (readLine (env plain)
    { input := (pilotKeys 5 [b "a", b "b", b "\x11"]).map .key }) = .inr (b "ab\r", .nil) := by
  decide +kernel

/-- A script that ends inside a search takes two carriage returns. -/
example : outcome (readLine { env plain with history := [b "abc", b "xyz"] }
    { input := (pilotKeys 4 [b "\x12", b "b"]).map .key }) = .inr (b "abc", .nil) := by
  decide +kernel

/-- With one carriage return less the Tty would run dry. -/
example : outcome (readLine (env plain)
    { input := (pilotKeys 4 [b "a", b "b", b "\x11"]).map .key }) = .inr ([], .tty []) := by
  decide +kernel
end

end Readline
