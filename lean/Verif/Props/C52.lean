import Verif.Model.Term
/-!
# C52: keys are read in raw mode, and the terminal is left in the mode it was found in

Whatever the terminal does (raw mode cannot be set, reads fail), after every call of `GetKey` the
mode is the one before, and every read happens in raw mode (`C52_getKey`, `C52_tty8`, `C52_tty10`).
So between two keys, while a command runs, and after `ReadLine`, a program finds the terminal as it
was.  `C52_same8`, `C52_same10`: as long as raw mode can be set, the keys are those of the simpler
model used elsewhere (C22, C23, C49).

`defer` also runs when the functions called panic; panics of the terminal, and failures of the
function that goes back to the old mode (the code ignores them), are not modelled.
-/
namespace Readline

/-- The terminal is as before except for what was read, and all that was read in raw mode. -/
structure Spec.Borrowed (t t' : Term) : Prop where
  mode : t'.raw = t.raw
  reads : ∃ n, t'.reads = t.reads ++ List.replicate n true

/-- The same while raw mode is on. -/
structure InRaw (t t' : Term) : Prop where
  mode : t'.raw = true
  reads : ∃ n, t'.reads = t.reads ++ List.replicate n true

open Spec

theorem InRaw.trans {a b c : Term} (h : InRaw a b) (h' : InRaw b c) : InRaw a c := by
  obtain ⟨n, e⟩ := h.reads
  obtain ⟨m, e'⟩ := h'.reads
  exact ⟨h'.mode, n + m, by rw [e', e, List.append_assoc, List.replicate_append_replicate]⟩

theorem readRune_raw {t : Term} (h : t.raw = true) : InRaw t t.readRune.2 := ⟨h, 1, by simp [Term.readRune, h]⟩

theorem rawKeyLoop_raw {n : Nat} {t : Term} {b : Bytes} {e : Bool} {s : Rune} (h : t.raw = true) :
    InRaw t (t.rawKeyLoop n b e s).2 := by
  induction n generalizing t b e s with
  | zero => exact ⟨h, 0, by simp [Term.rawKeyLoop]⟩
  | succ n ih =>
    have h1 := readRune_raw h
    rw [Term.rawKeyLoop]
    rcases hr : t.readRune with ⟨ev, t1⟩
    rw [hr] at h1
    rcases ev with _ | ⟨r, raw, keys⟩ | e
    · exact h1
    · dsimp only
      repeat' split
      all_goals first | exact h1 | exact h1.trans (ih h1.mode)
    · exact h1

theorem getKeysLoop_raw {n : Nat} {t : Term} {ks : List Bytes} (h : t.raw = true) :
    InRaw t (t.getKeysLoop n ks).2 := by
  induction n generalizing t ks with
  | zero => exact ⟨h, 0, by simp [Term.getKeysLoop]⟩
  | succ n ih =>
    have h1 : InRaw t t.getRawKey.2 := rawKeyLoop_raw h
    rw [Term.getKeysLoop]
    rcases hr : t.getRawKey with ⟨_ | ⟨k, more⟩, t1⟩
    · rw [hr] at h1; exact h1
    · rw [hr] at h1
      dsimp only
      split
      · exact h1
      · exact h1.trans (ih h1.mode)

/-- What `Raw()` does. -/
theorem setRaw_cases (t : Term) : (∃ e l, t.setRaw = (.error e, { t with attempts := l })) ∨
    ∃ l, t.setRaw = (.ok t.raw, { t with raw := true, attempts := l }) := by
  unfold Term.setRaw
  rcases t.attempts with _ | ⟨_ | e, l⟩
  · exact .inr ⟨[], rfl⟩
  · exact .inr ⟨l, rfl⟩
  · exact .inl ⟨e, l, rfl⟩

theorem C52_getKey (t : Term) : Borrowed t t.getKey.2 := by
  unfold Term.getKey
  rcases setRaw_cases t with ⟨e, l, h⟩ | ⟨l, h⟩
  · rw [h]; exact ⟨rfl, 0, by simp⟩
  · rw [h]
    obtain ⟨-, n, e⟩ := rawKeyLoop_raw (n := t.stream.length + 1) (t := { t with raw := true, attempts := l })
      (b := []) (e := false) (s := 0) rfl
    exact ⟨rfl, n, e⟩

theorem getKeys_borrowed (t : Term) : Borrowed t t.getKeys.2 := by
  unfold Term.getKeys
  rcases setRaw_cases t with ⟨e, l, h⟩ | ⟨l, h⟩
  · rw [h]; exact ⟨rfl, 0, by simp⟩
  · rw [h]
    obtain ⟨-, n, e⟩ := getKeysLoop_raw (n := t.stream.length + 1) (t := { t with raw := true, attempts := l })
      (ks := []) rfl
    exact ⟨rfl, n, e⟩

theorem C52_tty8 (q : List Bytes) (t : Term) : Borrowed t (Term.getKey8 (q, t)).2.2 := by
  unfold Term.getKey8
  cases q with
  | cons k q => exact ⟨rfl, 0, by simp⟩
  | nil =>
    have h := getKeys_borrowed t
    dsimp only
    rcases hk : t.getKeys with ⟨_ | _ | _, t1⟩ <;> (rw [hk] at h; exact h)

/-- The same for standard input. -/
structure Spec.Borrowed10 (t t' : Stdin) : Prop where
  mode : t'.raw = t.raw
  reads : ∃ n, t'.reads = t.reads ++ List.replicate n true

theorem stdin_borrowed (t : Stdin) : Borrowed10 t t.getKey.2 := by
  unfold Stdin.getKey
  rcases h : t.attempts with _ | ⟨_ | e, l⟩
  · exact ⟨rfl, 1, rfl⟩
  · exact ⟨rfl, 1, rfl⟩
  · exact ⟨rfl, 0, by simp⟩

theorem C52_tty10 (b : Bytes) (t : Stdin) : Borrowed10 t (Stdin.getKey10 (b, t)).2.2 := by
  unfold Stdin.getKey10
  have h := stdin_borrowed t
  dsimp only
  split
  · split <;> exact ⟨rfl, 0, by simp⟩
  · rcases hk : t.getKey with ⟨_ | _ | _, t1⟩
    · rw [hk] at h; exact h
    · rw [hk] at h; exact h
    · rw [hk] at h
      dsimp only
      split <;> exact h

/-- Any number of calls. -/
def Term.calls8 : Nat → List Bytes × Term → List Bytes × Term
  | 0, t => t
  | n + 1, t => calls8 n (Term.getKey8 t).2

theorem C52_calls8 (n : Nat) (q : List Bytes) (t : Term) : Borrowed t (Term.calls8 n (q, t)).2 := by
  induction n generalizing q t with
  | zero => exact ⟨rfl, 0, by simp [Term.calls8]⟩
  | succ n ih =>
    obtain ⟨h1, m, h2⟩ := C52_tty8 q t
    obtain ⟨g1, k, g2⟩ := ih (Term.getKey8 (q, t)).2.1 (Term.getKey8 (q, t)).2.2
    refine ⟨g1.trans h1, m + k, ?_⟩
    show (Term.calls8 n (Term.getKey8 (q, t)).2).2.reads = _
    rw [g2, h2, List.append_assoc, List.replicate_append_replicate]

def Stdin.calls10 : Nat → Bytes × Stdin → Bytes × Stdin
  | 0, t => t
  | n + 1, t => calls10 n (Stdin.getKey10 t).2

theorem C52_calls10 (n : Nat) (b : Bytes) (t : Stdin) : Borrowed10 t (Stdin.calls10 n (b, t)).2 := by
  induction n generalizing b t with
  | zero => exact ⟨rfl, 0, by simp [Stdin.calls10]⟩
  | succ n ih =>
    obtain ⟨h1, m, h2⟩ := C52_tty10 b t
    obtain ⟨g1, k, g2⟩ := ih (Stdin.getKey10 (b, t)).2.1 (Stdin.getKey10 (b, t)).2.2
    refine ⟨g1.trans h1, m + k, ?_⟩
    show (Stdin.calls10 n (Stdin.getKey10 (b, t)).2).2.reads = _
    rw [g2, h2, List.append_assoc, List.replicate_append_replicate]

/-! ## The same keys as in the model without modes -/

/-- The two ways to write a result. -/
def Rd.toExcept : Rd α → Except Bytes α × List TtyEv
  | .ok a rest => (.ok a, rest)
  | .err e rest => (.error e, rest)

theorem rawKeyLoop_same {n : Nat} {t : Term} {b : Bytes} {e : Bool} {s : Rune} (h : t.stream.length < n) :
    ((t.rawKeyLoop n b e s).1, (t.rawKeyLoop n b e s).2.stream) = (getRawKeyLoop t.stream b e s).toExcept ∧
      (t.rawKeyLoop n b e s).2.attempts = t.attempts := by
  induction n generalizing t b e s with
  | zero => omega
  | succ n ih =>
    rw [Term.rawKeyLoop]
    cases hs : t.stream with
    | nil =>
      have : t.readRune = (none, { t with stream := [], reads := t.reads ++ [t.raw] }) := by
        simp [Term.readRune, hs]
      rw [this]
      exact ⟨rfl, rfl⟩
    | cons ev rest =>
      have hr : t.readRune = (some ev, { t with stream := rest, reads := t.reads ++ [t.raw] }) := by
        simp [Term.readRune, hs]
      rw [hr]
      have hl : rest.length < n := by rw [hs] at h; simp at h; omega
      have ih' : ∀ b e s, _ := fun b e s =>
        ih (t := { t with stream := rest, reads := t.reads ++ [t.raw] }) (b := b) (e := e) (s := s) hl
      cases ev with
      | err x => exact ⟨rfl, rfl⟩
      | rune r raw keys =>
        rw [getRawKeyLoop]
        dsimp only at ih' ⊢
        by_cases h0 : r = 0
        · rw [if_pos h0, if_pos h0]; exact ih' _ _ _
        · rw [if_neg h0, if_neg h0]
          by_cases h1 : ¬ s > 0 ∧ isSurrogate r = true
          · rw [if_pos h1, if_pos h1]; exact ih' _ _ _
          · rw [if_neg h1, if_neg h1]
            generalize (if s > 0 then utf16Decode s r else r) = r'
            by_cases h2 : (!((e || r' == 0x1B) && raw) && decide ((b ++ encodeRune r').length > 0)) = true
            · rw [if_pos h2, if_pos h2]; exact ⟨rfl, rfl⟩
            · rw [if_neg h2, if_neg h2]; exact ih' _ _ _

theorem getRawKey_same (t : Term) :
    (t.getRawKey.1, t.getRawKey.2.stream) = (Readline.getRawKey t.stream).toExcept ∧
      t.getRawKey.2.attempts = t.attempts :=
  rawKeyLoop_same (Nat.lt_succ_self _)

theorem getKeysLoop_same {n : Nat} {t : Term} {ks : List Bytes} {x : Rd (List Bytes)}
    (h : Readline.getKeysLoop n t.stream ks = some x) :
    ((t.getKeysLoop n ks).1, (t.getKeysLoop n ks).2.stream) = x.toExcept := by
  induction n generalizing t ks with
  | zero => cases h
  | succ n ih =>
    have h1 := (getRawKey_same t).1
    rw [Readline.getKeysLoop] at h
    rw [Term.getKeysLoop]
    cases hg : Readline.getRawKey t.stream with
    | err e rest =>
      rw [hg] at h1 h
      injection h with h
      subst h
      rcases hk : t.getRawKey with ⟨_ | _, t1⟩
      · rw [hk] at h1
        injection h1 with a b
        injection a with a
        dsimp only at a b
        subst a b
        rfl
      · rw [hk] at h1
        injection h1 with a b
        cases a
    | ok p rest =>
      obtain ⟨k, more⟩ := p
      rw [hg] at h1 h
      rcases hk : t.getRawKey with ⟨_ | ⟨k', more'⟩, t1⟩
      · rw [hk] at h1
        injection h1 with a b
        cases a
      · rw [hk] at h1
        injection h1 with a b
        injection a with a
        obtain ⟨rfl, rfl⟩ := Prod.mk.inj a
        dsimp only at b h ⊢
        subst b
        by_cases hm : (!more') = true
        · rw [if_pos hm] at h ⊢
          injection h with h
          subst h
          rfl
        · rw [if_neg hm] at h ⊢
          exact ih h

/-- As long as raw mode can be set, tty8 gives the keys of `Tty8.getKey`. -/
theorem C52_same8 {q : List Bytes} {t : Term} (h : t.attempts = []) {r : Except Bytes Bytes} {u : Tty8}
    (hk : Tty8.getKey ⟨q, t.stream⟩ = some (r, u)) :
    (Term.getKey8 (q, t)).1 = r ∧ (Term.getKey8 (q, t)).2.1 = u.buf ∧
      (Term.getKey8 (q, t)).2.2.stream = u.stream := by
  cases q with
  | cons k q =>
    injection hk with hk
    obtain ⟨rfl, rfl⟩ := Prod.mk.inj hk
    exact ⟨rfl, rfl, rfl⟩
  | nil =>
    unfold Tty8.getKey at hk
    dsimp only at hk
    unfold Readline.getKeys at hk
    cases hg : Readline.getKeysLoop (t.stream.length + 1) t.stream [] with
    | none => rw [hg] at hk; cases hk
    | some x =>
      rw [hg] at hk
      have h1 := getKeysLoop_same (t := { t with raw := true }) hg
      have h2 : t.getKeys = (let p := ({ t with raw := true } : Term).getKeysLoop (t.stream.length + 1) []; (p.1, p.2.restore t.raw)) := by
        unfold Term.getKeys Term.setRaw
        rw [h]
      unfold Term.getKey8
      dsimp only
      rw [h2]
      rcases hp : ({ t with raw := true } : Term).getKeysLoop (t.stream.length + 1) [] with ⟨a, t1⟩
      rw [hp] at h1
      rcases x with ⟨ks, rest⟩ | ⟨e, rest⟩
      · injection h1 with a1 a2
        subst a1 a2
        rcases ks with _ | ⟨k, ks⟩
        all_goals
          injection hk with hk
          obtain ⟨rfl, rfl⟩ := Prod.mk.inj hk
          exact ⟨rfl, rfl, rfl⟩
      · injection h1 with a1 a2
        subst a1 a2
        injection hk with hk
        obtain ⟨rfl, rfl⟩ := Prod.mk.inj hk
        exact ⟨rfl, rfl, rfl⟩

/-- As long as raw mode can be set, tty10 gives the keys of `Tty10.getKey`. -/
theorem C52_same10 {b : Bytes} {t : Stdin} (h : t.attempts = []) :
    (Stdin.getKey10 (b, t)).1 = (Tty10.getKey ⟨b, t.chunks⟩).1 ∧
    (Stdin.getKey10 (b, t)).2.1 = (Tty10.getKey ⟨b, t.chunks⟩).2.buf ∧
    (Stdin.getKey10 (b, t)).2.2.chunks = (Tty10.getKey ⟨b, t.chunks⟩).2.chunks := by
  unfold Stdin.getKey10 Tty10.getKey
  dsimp only
  by_cases hb : b.length > 0
  · rw [if_pos hb, if_pos hb]
    split <;> exact ⟨rfl, rfl, rfl⟩
  · rw [if_neg hb, if_neg hb]
    unfold Stdin.getKey
    rw [h]
    dsimp only
    rcases t.chunks with _ | ⟨_ | _ | ⟨c, l⟩, rest⟩
    · exact ⟨rfl, rfl, rfl⟩
    · exact ⟨rfl, rfl, rfl⟩
    · exact ⟨rfl, rfl, rfl⟩
    · dsimp only
      split <;> exact ⟨rfl, rfl, rfl⟩

/-! ## Cases -/

/-- Raw mode fails once, then a letter comes, then an error: the mode is as before each time, and
the terminal was read twice. -/
example : (Term.calls8 3 ([], ⟨false, [some [1]], [.rune 0x61 false false, .err [2]], []⟩)).2 =
    ⟨false, [], [], [true, true]⟩ := by decide

example : (Stdin.getKey10 ([], ⟨false, [none], [.ok [0x61]], []⟩)).2.2.reads = [true] := by rfl

end Readline
