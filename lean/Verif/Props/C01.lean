import Verif.Proof.Invariant
import Verif.Proof.Jam
import Verif.Proof.Mild
import Verif.Spec.Example
/-!
# C01: no key sequence crashes the editor

`C01_partial`: a session of built-in and completion commands panics only

* when the terminal has no room for the cursor and the widest unit of the line (an index or
  slice out of range),
* at a tab whose column does not fit 16 bits (`TabBad`), or
* when the candidates of a completion command make it panic (`Panic.crash`, see C34),

provided that no state of the session is one of the two that break the undo log (`Calm`), and
that the field `Cursor` is not negative at the start.  Without the condition on the states there
is one more panic: an Undo whose entry does not fit the line (`C01_any_partial`); without Undo keys
there is none (`C01_no_undo_partial`); and if only loose joiners are excluded, the entry is always that
of a Ctrl-T at the end of the line with everything after it undone (`C01_tidy_partial`; C08 says that
such an Undo does panic).  `C01_ordinary_partial` and
`C01_texts_partial` have conditions on the texts, the keys and the terminal only, and then exclude
all panics but those of completion commands, and all panics; `C01_texts_no_undo_partial` allows Ctrl-T
instead of Undo.  The excluded situations are real:

* `C01_refuted_swap`: typing "ab", Ctrl-T, Ctrl-Z panics on every terminal;
* `C01_refuted_orphan`: a joiner typed at the start of the line ends in a slice beyond the length;
* `C01_narrow`, `C01_wide`: terminals that are too narrow;
* `C01_negative_cursor`: a negative `Cursor`;
* `C01_tab`: a tab behind 32767 columns;
* `C34_refuted_case`: candidates that differ in `i` and dotless `ı`.
-/
namespace Readline
open Spec

/-- A session of built-in and completion commands panics only for want of room on the screen, at a
tab beyond the column 32767 or for the candidates of a completion command. -/
theorem C01_partial {E : Env} {w : World} {p : Panic} (hb : BuiltinKeys E) (hc : 0 ≤ w.cursor)
    (hcalm : ∀ s, Reachable E w s → Calm E s) (h : readLine E w = .error p) :
    (p.kind = .bounds ∧ p.st.narrow E.cfg) ∨ (p.kind = .tabPos ∧ TabBad E p.st) ∨
      ∃ k, p.crash (lookupCommand E k) := by
  have : p.expected E := by
    rcases readLine_error hb h with h | ⟨t, ht, h⟩
    · exact Or.inl ((startSt_wp hc).error h)
    · obtain ⟨hs, hi⟩ := calm_inv hb hc (CalmReachable.of_reachable hcalm ht)
      exact (hi.step_wp hb).error h
  rcases this with this | this
  · exact this.symm.imp id Or.inl
  · exact Or.inr (Or.inr this)

/-- In any session of built-in and completion commands there is one more reason: the key is Undo and
the entry it is to use does not fit the line. -/
theorem C01_any_partial {E : Env} {w : World} {p : Panic} (hb : BuiltinKeys E) (hc : 0 ≤ w.cursor) (h : readLine E w = .error p) :
    (p.kind = .bounds ∧ p.st.narrow E.cfg) ∨ (p.kind = .tabPos ∧ TabBad E p.st) ∨
      (∃ k, p.crash (lookupCommand E k)) ∨
      ∃ s k rest u us, Reachable E w s ∧ step E s = .error p ∧ s.input = .key k :: rest ∧ lookupCommand E k = .undo ∧
        s.undoes = u :: us ∧ ¬ (0 ≤ u.pos ∧ u.pos + u.del ≤ s.buf.length) := by
  have hk : ∀ {q : Panic}, q.expected E → (q.kind = .bounds ∧ q.st.narrow E.cfg) ∨ (q.kind = .tabPos ∧ TabBad E q.st) ∨
      ∃ k, q.crash (lookupCommand E k) := by
    rintro q (this | this)
    · exact this.symm.imp id Or.inl
    · exact Or.inr (Or.inr this)
  have weaken : ∀ {A B C D : Prop}, A ∨ B ∨ C → A ∨ B ∨ C ∨ D := fun h => h.imp id (.imp id .inl)
  rcases readLine_error hb h with h | ⟨t, ht, h⟩
  · exact weaken (hk (Or.inl ((startSt_wp hc).error h)))
  · obtain ⟨h1, h2⟩ := reachable_inside hb hc ht
    rcases step_error hb h1 h2 h with h3 | ⟨k, rest, u, us, h4⟩
    · exact weaken (hk h3)
    · exact Or.inr (Or.inr (Or.inr ⟨t, k, rest, u, us, ht, h, h4⟩))

/-- Without Undo keys, whatever else is typed, the undo log does no harm. -/
theorem C01_no_undo_partial {E : Env} {w : World} {p : Panic} (hb : BuiltinKeys E) (hc : 0 ≤ w.cursor)
    (hu : ∀ k, .key k ∈ w.input → lookupCommand E k ≠ .undo) (h : readLine E w = .error p) :
    (p.kind = .bounds ∧ p.st.narrow E.cfg) ∨ (p.kind = .tabPos ∧ TabBad E p.st) ∨
      ∃ k, p.crash (lookupCommand E k) := by
  rcases C01_any_partial hb hc h with h | h | h | ⟨s, k, rest, u, us, hr, -, hi, hk, -⟩
  · exact Or.inl h
  · exact Or.inr (Or.inl h)
  · exact Or.inr (Or.inr h)
  · exact absurd hk (hu k ((reachable_input hb hr).subset (by rw [hi]; simp)))

/-- If there is never a loose joiner in the line, that Undo is one of a Ctrl-T at the end of the line:
all that was done since is undone, and the slice of what to delete is out of range. -/
theorem C01_tidy_partial {E : Env} {w : World} {p : Panic} (hb : BuiltinKeys E) (hc : 0 ≤ w.cursor)
    (ht : ∀ s, Reachable E w s → Tidy E.cfg s) (h : readLine E w = .error p) :
    (p.kind = .bounds ∧ p.st.narrow E.cfg) ∨ (p.kind = .tabPos ∧ TabBad E p.st) ∨
      (∃ k, p.crash (lookupCommand E k)) ∨
      ∃ s k rest, Regains E w s [] true ∧ step E s = .error p ∧ p.kind = .bounds ∧
        s.input = .key k :: rest ∧ lookupCommand E k = .undo := by
  rcases readLine_error hb h with h | ⟨t, hr, h⟩
  · exact ((startSt_wp hc).error h).elim (fun h => Or.inr (Or.inl h)) Or.inl
  · rcases tidy_step_error hb hc (TidyReachable.of_reachable ht hr) h with (h | h) | ⟨h1, h2, k, rest, h3⟩
    · exact h.elim (fun h => Or.inr (Or.inl h)) Or.inl
    · exact Or.inr (Or.inr (Or.inl h))
    · exact Or.inr (Or.inr (Or.inr ⟨t, k, rest, h2, h, h1, h3⟩))

/-- With the terminal features switched off and no key of the script bound to SwapChar, every
state is calm. -/
theorem calm_plain {E : Env} {w : World} (hb : BuiltinKeys E)
    (hz : E.cfg.zwjOk = false) (hv : E.cfg.varOk = false) (hm : E.cfg.modOk = false)
    (hsw : ∀ k, .key k ∈ w.input → lookupCommand E k ≠ .swapChar) (s : St)
    (h : Reachable E w s) : Calm E s := by
  refine ⟨?_, ?_⟩
  · intro u _ hj
    rcases hj with ⟨h, -⟩ | ⟨h, -⟩ | ⟨h, -⟩
    · rw [hz] at h; cases h
    · rw [hv] at h; cases h
    · rw [hm] at h; cases h
  · intro k rest hi hk
    exact absurd hk (hsw k ((reachable_input hb h).subset (by rw [hi]; simp)))

/-- On a terminal without joined characters no key sequence without SwapChar makes the editor
panic, as long as there is room for the widest unit, the screen and the line are not wider than
32767 columns and the candidates of the completion commands, if there are any, do no harm. -/
theorem C01_plain_partial {E : Env} {w : World} {p : Panic} (hb : BuiltinKeys E) (hc : 0 ≤ w.cursor)
    (hw : ∀ m : Moji, 0 ≤ m.width E.cfg)
    (hz : E.cfg.zwjOk = false) (hv : E.cfg.varOk = false) (hm : E.cfg.modOk = false)
    (hsw : ∀ k, .key k ∈ w.input → lookupCommand E k ≠ .swapChar)
    (h : readLine E w = .error p) :
    p.st.narrow E.cfg ∨ 32767 < p.st.viewWidth ∨ 32767 < cellsWidth E.cfg p.st.buf ∨
      (∃ c ∈ p.st.buf, c.moji.isZwj = true) ∨ ∃ k, p.crash (lookupCommand E k) := by
  rcases C01_partial hb hc (calm_plain hb hz hv hm hsw) h with ⟨-, h⟩ | ⟨-, h⟩ | h
  · exact Or.inl h
  · rcases h with ⟨m, h⟩ | h | h | ⟨c, h1, h2, -⟩ | ⟨h, -⟩
    · have := hw m; omega
    · exact Or.inr (Or.inl h)
    · exact Or.inr (Or.inr (Or.inl h))
    · exact Or.inr (Or.inr (Or.inr (Or.inl ⟨c, h1, h2⟩)))
    · rw [hz] at h; cases h
  · exact Or.inr (Or.inr (Or.inr (Or.inr h)))

section
open Example

/-- Ctrl-T at the end of the line records a wrong position, gommand.go:395-403: the next Undo
panics. -/
theorem C01_refuted_swap :
    outcome (readLine (env plain) { input := keys ["a", "b", "\x14", "\x1a"] }) = .inl .bounds := by
  decide +kernel

/-- A ZERO WIDTH JOINER at the start of the line, then Home, X, End, Ctrl-K, Ctrl-U, Ctrl-Z,
Ctrl-Z: the text put back has one unit less than was taken away. -/
theorem C01_refuted_orphan :
    outcome (readLine (env full)
      { input := keys ["‍", "\x01", "X", "\x05", "\x0b", "\x15", "\x1a", "\x1a"] }) = .inl .stale := by
  decide +kernel

/-- Ctrl-E on an empty line when the screen has become three columns wide. -/
theorem C01_narrow :
    outcome (readLine (env plain) { termWidth := 10, input := .resize 3 :: keys ["\x05"] }) =
      .inl .bounds := by decide +kernel

/-- A two-column character on a screen with room for two columns, before the cursor. -/
theorem C01_wide :
    outcome (readLine (env plain)
      { termWidth := 10, input := keys ["a", "あ", "\x02"] ++ [.resize 4] }) = .inl .bounds := by
  decide +kernel

/-- "ab", Ctrl-T, "c", Ctrl-Z, Ctrl-Z: the second Undo is that of the exchange. -/
example :
    let w : World := { input := keys ["a", "b", "\x14", "c", "\x1a", "\x1a"] }
    look (after (env plain) w 4) = .inr ([b "b", b "a", b "c"], 3, 0) ∧
    look (after (env plain) w 5) = .inr ([b "b", b "a"], 2, 0) ∧
    look (after (env plain) w 6) = .inl .bounds := by decide +kernel

/-- Without Undo the loose joiner of `C01_refuted_orphan` does no harm. -/
example : outcome (readLine (env full)
      { input := keys ["‍", "\x01", "X", "\x05", "\x14", "\x0b", "\x15", "\x19", "\r"] }) = .inr (b "‍X", .nil) := by
  decide +kernel

/-- A negative `Cursor` at the start. -/
theorem C01_negative_cursor :
    outcome (readLine (env plain) { cursor := -1, input := keys ["a"] }) = .inl .bounds := by
  decide +kernel

end

/-- A tab whose column, counted modulo 65536, is 32769, cannot be printed. -/
theorem C01_tab (s : St) : printMoji s (.tab (toInt16 32769)) = .error ⟨.tabPos, s⟩ := by
  have : (Moji.tab (toInt16 32769)).printPanics = true := by decide
  simp [printMoji, this]

/-- The hypotheses of `C01_partial` hold for the default keys. -/
theorem defaultKeys_builtin (C : Cfg) : BuiltinKeys (Example.env C) := by
  intro k f h
  have h1 : ∀ p ∈ globalTable, p.2.builtin = true := by decide
  have h2 : lookupCommand (Example.env C) k = match assoc globalTable k with
    | some f => f
    | none => .selfInsert k := rfl
  rw [h2] at h
  split at h
  · rename_i f' hf
    unfold assoc at hf
    cases hp : globalTable.find? (fun p => p.1 == k) with
    | none => rw [hp] at hf; cases hf
    | some p =>
      rw [hp] at hf
      have := h1 p (List.mem_of_find?_eq_some hp)
      simp only [Option.map_some, Option.some.injEq] at hf
      rw [hf, h] at this
      cases this
  · cases h

/-- A session that meets the hypotheses of both theorems: text, tabs, kills, undos, history,
resizes, in any order. -/
example (rest : List Ev)
    (h : ∀ k, .key k ∈ rest → lookupCommand (Example.env Example.plain) k ≠ .swapChar) :
    ∀ s, Reachable (Example.env Example.plain)
      { input := Example.keys ["h", "i", "\t", "\x15", "\x1a"] ++ rest } s →
      Calm (Example.env Example.plain) s := by
  apply calm_plain (defaultKeys_builtin _) rfl rfl rfl
  intro k hk
  rw [List.mem_append] at hk
  rcases hk with hk | hk
  · simp only [Example.keys, List.map_cons, List.map_nil, List.mem_cons, Ev.key.injEq, List.not_mem_nil, or_false] at hk
    rcases hk with rfl | rfl | rfl | rfl | rfl <;> 
      (intro hx
       have := congrArg (fun c => match c with | .swapChar => true | _ => false) hx
       revert this; decide +kernel)
  · exact h k hk

/-! ## Conditions on the texts, the keys and the terminal alone -/

theorem ordinary_calm {P : Nat → Prop} {E : Env} {w : World} (hb : BuiltinKeys E) (ho : Modest P E w)
    (hsw : ∀ k, .key k ∈ w.input → lookupCommand E k ≠ .swapChar) {s : St} (h : Reachable E w s) : Calm E s := by
  refine ⟨fun u hu hj => ?_, fun k rest hi hk => ?_⟩
  · have hu := List.mem_of_mem_tail hu
    rw [St.units_eq] at hu
    obtain ⟨m, hm, rfl⟩ := List.mem_map.mp hu
    have hf := reachable_from hb ho.sources h
    obtain ⟨r, hr, e⟩ := built_plain (hf.built m hm) ho.plain (hf.line m hm)
    have e : m = rune2moji E.cfg r 0 := e
    have hp : P (decodeRune m.write).1 := by
      refine hf.line m hm _ ?_
      have hne : m.write ≠ [] := by rw [e, rune2moji_write]; exact encodeRune_ne_nil r
      cases hw : m.write with
      | nil => exact absurd hw hne
      | cons x t => rw [runesOf_cons]; simp
    exact (ho.plain _ hp).alone hj
  · exact absurd hk (hsw k ((reachable_input hb h).subset (by rw [hi]; simp)))

/-- An ordinary session without SwapChar panics only for the candidates of a completion command. -/
theorem C01_ordinary_partial {P : Nat → Prop} {E : Env} {w : World} {p : Panic} (hb : BuiltinKeys E) (hc : 0 ≤ w.cursor)
    (ho : Modest P E w) (hsw : ∀ k, .key k ∈ w.input → lookupCommand E k ≠ .swapChar) (h : readLine E w = .error p) :
    ∃ k, p.crash (lookupCommand E k) := by
  obtain ⟨h1, h2⟩ := ordinary_mild hb ho h
  rcases C01_partial hb hc (fun s hs => ordinary_calm hb ho hsw hs) h with ⟨-, h'⟩ | ⟨h', -⟩ | h'
  · exact absurd h' h2
  · exact absurd h' h1
  · exact h'

/-- Whatever the keys are bound to, but for completion and commands of the program: ordinary texts, and no key that
exchanges. -/
theorem C01_bound_partial {E : Env} {w : World} (hb : BuiltinKeys E) (hcm : ∀ q K, lookupCommand E q ≠ .completion K)
    (hq : PredictsOver (Plain E.cfg) E) (hc : E.clipSet = fun _ t => some t) (hp : E.prompt = none)
    (ht : ∀ t, t = E.default ∨ t ∈ E.history ∨ w.clip = some t ∨ FromKey E w t → Over (Plain E.cfg) t)
    (h22 : Plain E.cfg 0x22) (hs : ∀ k, .key k ∈ w.input → lookupCommand E k ≠ .swapChar) (hw : 7 < w.termWidth)
    (hr : ∀ n, .resize n ∈ w.input → 7 < n) (hcur : 0 ≤ w.cursor) :
    ∃ s r, readLine E w = .ok (s, r) := by
  cases h : readLine E w with
  | ok p => exact ⟨p.1, p.2, rfl⟩
  | error p =>
    obtain ⟨k, K, h1, -⟩ := C01_ordinary_partial hb hcur (modest_bound hcm hq hc hp ht h22 hw hr) hs h
    exact absurd h1 (hcm k K)

/-- With the default keys and the default prompt, any sequence of keys but Ctrl-T, any changes of
the width and any history make `ReadLine` return, if there are no tabs and no joined characters in
the texts and the keys that are typed into the line, and there is always room for eight columns. -/
theorem C01_texts_partial {E : Env} {w : World} (hk : E.keyMap = none) (hg : E.globalKeyMap = defaultGlobalKeyMap)
    (hq : E.predictor = none) (hc : E.clipSet = fun _ t => some t) (hp : E.prompt = none)
    (ht : ∀ t, t = E.default ∨ t ∈ E.history ∨ w.clip = some t ∨ FromKey E w t → Over (Plain E.cfg) t)
    (h22 : Plain E.cfg 0x22) (hs : .key [0x14] ∉ w.input) (hw : 7 < w.termWidth) (hr : ∀ n, .resize n ∈ w.input → 7 < n) (hcur : 0 ≤ w.cursor) :
    ∃ s r, readLine E w = .ok (s, r) := by
  have hb : BuiltinKeys E := by
    intro k f h
    refine defaultKeys_builtin E.cfg k f ?_
    rw [← h]
    unfold lookupCommand
    rw [hk, hg]
    rfl
  exact C01_bound_partial hb (fun _ _ => env_completion hk hg) (predictsOver_none hq) hc hp ht h22
    (fun k hk' hc' => hs (env_swap hk hg hc' ▸ hk')) hw hr hcur

theorem env_undo {E : Env} {q : Bytes} (hk : E.keyMap = none) (hg : E.globalKeyMap = defaultGlobalKeyMap)
    (hc : lookupCommand E q = .undo) : q = [0x1A] ∨ q = [0x1F] := by
  have h1 : ∀ p ∈ globalTable, (match p.2 with | .undo => decide (p.1 = [0x1A] ∨ p.1 = [0x1F]) | _ => true) = true := by decide
  have h2 : lookupCommand E q = match assoc globalTable q with
    | some f => f
    | none => .selfInsert q := by unfold lookupCommand; rw [hk, hg]; rfl
  rw [h2] at hc
  split at hc
  · rename_i f' hf
    unfold assoc at hf
    cases hp : globalTable.find? (fun p => p.1 == q) with
    | none => rw [hp] at hf; cases hf
    | some p =>
      rw [hp] at hf
      have h3 := h1 p (List.mem_of_find?_eq_some hp)
      have h4 := List.find?_some hp
      simp only [Option.map_some, Option.some.injEq] at hf
      rw [hf, hc] at h3
      rw [← eq_of_beq h4]
      have f := of_decide_eq_true h3
      exact f
  · cases hc

/-- The same with Ctrl-T in any place but without Ctrl-Z and Ctrl-_. -/
theorem C01_texts_no_undo_partial {E : Env} {w : World} (hk : E.keyMap = none) (hg : E.globalKeyMap = defaultGlobalKeyMap)
    (hq : E.predictor = none) (hc : E.clipSet = fun _ t => some t) (hp : E.prompt = none)
    (ht : ∀ t, t = E.default ∨ t ∈ E.history ∨ w.clip = some t ∨ FromKey E w t → Over (Plain E.cfg) t)
    (h22 : Plain E.cfg 0x22) (hs : .key [0x1A] ∉ w.input ∧ .key [0x1F] ∉ w.input) (hw : 7 < w.termWidth)
    (hr : ∀ n, .resize n ∈ w.input → 7 < n) (hcur : 0 ≤ w.cursor) :
    ∃ s r, readLine E w = .ok (s, r) := by
  have ho := modest_texts hk hg hq hc hp ht h22 hw hr
  have hb : BuiltinKeys E := by
    intro k f h
    refine defaultKeys_builtin E.cfg k f ?_
    rw [← h]
    unfold lookupCommand
    rw [hk, hg]
    rfl
  cases h : readLine E w with
  | ok p => exact ⟨p.1, p.2, rfl⟩
  | error p =>
    obtain ⟨h1, h2⟩ := ordinary_mild hb ho h
    have hu : ∀ k, .key k ∈ w.input → lookupCommand E k ≠ .undo := by
      intro k hk' hc'
      rcases env_undo hk hg hc' with rfl | rfl
      · exact hs.1 hk'
      · exact hs.2 hk'
    rcases C01_no_undo_partial hb hcur hu h with ⟨-, h'⟩ | ⟨h', -⟩ | ⟨k, K, h1, -⟩
    · exact absurd h' h2
    · exact absurd h' h1
    · exact absurd h1 (env_completion hk hg)

/-- Printable ASCII, all control keys but Tab and Ctrl-T, and escape sequences, in any order. -/
example (l : List Bytes) (hl : ∀ k ∈ l, k ≠ [0x14] ∧ ∀ r ∈ runesOf k, r < 0x7F ∧ r ≠ 9) :
    ∃ s r, readLine (Example.env Example.full) { input := l.map .key } = .ok (s, r) := by
  have asc : ∀ r, r < 0x7F → r ≠ 9 → Plain Example.full r := by
    intro r h1 h2
    refine ⟨?_, h2, Or.inl (by omega), Or.inr ?_⟩
    · rintro (⟨-, h⟩ | ⟨-, h⟩ | ⟨-, h⟩)
      · omega
      · have : (0xFE00 ≤ r ∧ r ≤ 0xFE0F) := by simpa [Example.full, Example.plain] using h
        omega
      · omega
    · show 1 ≤ (if r < 0x1100 then (1 : Int) else 2) ∧ _ ≤ _
      rw [if_pos (by omega)]
      show (1 : Int) ≤ 1 ∧ (if r < 0x1100 then (1 : Int) else 2) ≤ 2
      rw [if_pos (by omega)]
      omega
  refine C01_texts_partial rfl rfl rfl rfl rfl (fun t ht => ?_) (asc _ (by decide) (by decide)) (fun h => ?_)
    (by show (7 : Int) < 80; decide) (fun n h => ?_) (Int.le_refl 0)
  · rcases ht with rfl | ht | ht | ht
    · exact over_nil
    · cases ht
    · cases ht
    · obtain ⟨k, hk, e⟩ := List.mem_map.mp (env_typed rfl rfl ht)
      cases e
      exact fun r hr => asc r ((hl _ hk).2 r hr).1 ((hl _ hk).2 r hr).2
  · obtain ⟨k, hk, e⟩ := List.mem_map.mp h
    cases e
    exact (hl _ hk).1 rfl
  · obtain ⟨k, hk, e⟩ := List.mem_map.mp h
    cases e

end Readline
