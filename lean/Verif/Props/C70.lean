import Verif.Proof.Reads
import Verif.Spec.Example
import Verif.Proof.Session
/-!
# C70: bytes that are not text

`C70_reads`, `C70_units`: every byte string is read in exactly one way, whole characters as they are and every byte at which
none begins as U+FFFD, and has the units and the width of the text so read.  `C70_default`: `ReadLine` does with such a
default text what it does with the text so read.  `C70_insert`, `C70_history`, `C70_yank`: so do insertion, the history
commands and Yank.  `C70_valid`: what `ReadLine` returns is valid UTF-8, whatever bytes come from the caller, the keys, the
history, the clipboard, the predictor or the caller's own commands; `C70_line`: so is the line at any time, which is what
the predictor and the completion get to see.  `C70_refuted_search`: a history line that is not text is not found by the
characters that are shown for it, nor predicted from them; `C70_refuted_browse`: nor is it the same as the text shown for it
when the editor decides whether it was changed.
-/
namespace Readline
open Spec

variable {E : Env} {w : World} {s : St} {t : Bytes} {cs : List Char}

/-- Every byte string is read in exactly one way. -/
theorem C70_reads (t : Bytes) : ∃ cs, ReadAs t cs ∧ ∀ ds, ReadAs t ds → ds = cs := by
  obtain ⟨cs, h⟩ := reads_exists t
  exact ⟨cs, h, fun ds h' => reads_unique h' h⟩

/-- Its units, their number and its width are those of the text so read. -/
theorem C70_units (C : Cfg) (h : ReadAs t cs) :
    stringToMoji C t = stringToMoji C (utf8 cs) ∧ mojiWidthAndCount C t = mojiWidthAndCount C (utf8 cs) := by
  refine ⟨reads_units h C, ?_⟩
  have := reads_units h C
  exact Prod.ext (by rw [C06_width, C06_width, this]) (by rw [C06_count, C06_count, this])

/-! ## The default text -/

theorem update_default (x : Bytes) (it : ISt) (n : Nat) : isearchUpdate { E with default := x } it n = isearchUpdate E it n := by
  induction n with
  | zero => rfl
  | succ n ih => unfold isearchUpdate; rw [ih]; rfl

theorem prev_default (x : Bytes) (s : St) (it : ISt) (n : Nat) (i : Int) :
    isearchPrev { E with default := x } s it n i = isearchPrev E s it n i := by
  induction n generalizing i with
  | zero => rfl
  | succ n ih => unfold isearchPrev; simp only [ih]; rfl

theorem next_default (x : Bytes) (s : St) (it : ISt) (n : Nat) (i : Int) :
    isearchNext { E with default := x } s it n i = isearchNext E s it n i := by
  induction n generalizing i with
  | zero => rfl
  | succ n ih => unfold isearchNext; simp only [ih]; rfl

theorem replace_default (x : Bytes) (s : St) (n : Int) (t : Bytes) :
    replaceAndRepaint { E with default := x } s n t = replaceAndRepaint E s n t := rfl

theorem view_default (x : Bytes) (s : St) : getView2 { E with default := x } s = getView2 E s := rfl

theorem puts_default (x : Bytes) (s : St) (a c : Int) : puts { E with default := x } s a c = puts E s a c := rfl

theorem isearchLoop_default (x : Bytes) (n : Nat) (it : ISt) (s : St) :
    isearchLoop { E with default := x } n it s = isearchLoop E n it s := by
  induction n generalizing it s with
  | zero => rfl
  | succ n ih =>
    unfold isearchLoop
    simp only [ih, update_default, prev_default, next_default, replace_default, view_default, puts_default]

theorem call_default (x : Bytes) (c : Cmd) (s : St) : Cmd.call { E with default := x } c s = Cmd.call E c s := by
  cases c
  case isearchBackward => exact isearchLoop_default ..
  all_goals (simp only [Cmd.call])
  all_goals rfl

theorem step_default (x : Bytes) (s : St) : step { E with default := x } s = step E s := by
  unfold step
  cases s.input with
  | nil => rfl
  | cons ev rest =>
    cases ev with
    | err e => rfl
    | resize n => rfl
    | key k =>
      show execCmd _ (lookupCommand E k) _ = execCmd E (lookupCommand E k) _
      unfold execCmd
      simp only [call_default]
      rfl

theorem loop_default (x : Bytes) (n : Nat) (s : St) : loop { E with default := x } n s = loop E n s := by
  induction n generalizing s with
  | zero => rfl
  | succ n ih =>
    unfold loop
    rw [step_default]
    simp only [ih]

theorem startSt_default (h : ReadAs t cs) : startSt { E with default := t } w = startSt { E with default := utf8 cs } w := by
  unfold startSt insertString
  dsimp only
  rw [reads_units h]
  rfl

/-- `ReadLine` does with a default text that is not text what it does with the text that is read. -/
theorem C70_default (h : ReadAs t cs) : readLine { E with default := t } w = readLine { E with default := utf8 cs } w := by
  unfold readLine
  rw [startSt_default h]
  simp only [loop_default]

/-! ## Commands -/

/-- So do the methods that insert. -/
theorem C70_insert (p : Int) (h : ReadAs t cs) :
    insertString E s p t = insertString E s p (utf8 cs) ∧
    replaceAndRepaint E s p t = replaceAndRepaint E s p (utf8 cs) ∧
    insertAndRepaint E s t = insertAndRepaint E s (utf8 cs) := by
  have e : ∀ (s : St) p, insertString E s p t = insertString E s p (utf8 cs) := by
    intro s p; unfold insertString; rw [reads_units h]
  refine ⟨e s p, ?_, ?_⟩
  · unfold replaceAndRepaint; simp only [e]
  · unfold insertAndRepaint replaceAndRepaint; simp only [e]

theorem utf8_nil_iff : utf8 cs = [] ↔ cs = [] := by
  cases cs with
  | nil => simp [utf8]
  | cons c cs =>
    simp only [utf8, List.flatMap_cons, List.append_eq_nil_iff, reduceCtorEq, iff_false, not_and]
    intro h
    rw [← encodeRune_char] at h
    exact absurd h (encodeRune_ne_nil _)

theorem reads_nil (h : ReadAs t cs) : t = [] ↔ cs = [] := by
  cases h with
  | nil => simp
  | @char c t cs _ =>
    simp only [List.append_eq_nil_iff, reduceCtorEq, iff_false, not_and]
    intro h
    rw [← encodeRune_char] at h
    exact absurd h (encodeRune_ne_nil _)
  | bad => simp

/-- The history commands, going to a line that is not text: the same state as with the text that is read there. -/
theorem C70_history {i : Nat} (hi : s.histPtr = i) (hm : s.modHist i = none) (ht : E.history[i]? = some t) (h : ReadAs t cs) :
    showHistory { E with history := E.history.set i (utf8 cs) } s = showHistory E s := by
  have hlt : i < E.history.length := (List.getElem?_eq_some_iff.mp ht).1
  have e1 : ∀ s' : St, s'.histPtr = i → s'.modHist i = none → getHistory E s' = .ok t := by
    intro s' h1 h2
    unfold getHistory histAt index
    rw [h1, h2]
    dsimp only
    rw [if_neg (by unfold Env.histLen; omega), if_neg (by omega)]
    simp [ht]
  have e2 : ∀ s' : St, s'.histPtr = i → s'.modHist i = none →
      getHistory { E with history := E.history.set i (utf8 cs) } s' = .ok (utf8 cs) := by
    intro s' h1 h2
    unfold getHistory histAt index
    rw [h1, h2]
    dsimp only
    rw [if_neg (by unfold Env.histLen; simp; omega), if_neg (by omega)]
    simp [hlt]
  unfold showHistory
  cases hk : cmdKillWholeLine s with
  | error e => rfl
  | ok p =>
    obtain ⟨s1, r1⟩ := p
    have hf : s1.histPtr = s.histPtr ∧ s1.modHist = s.modHist := by
      cases pure_ok.mp hk
      exact ⟨rfl, rfl⟩
    show (do
      let t ← getHistory _ s1
      _) = (do
      let t ← getHistory E s1
      _)
    rw [e1 s1 (hf.1.trans hi) (by rw [hf.2]; exact hm), e2 s1 (hf.1.trans hi) (by rw [hf.2]; exact hm)]
    have hn : utf8 cs ≠ [] ↔ t ≠ [] := not_congr (utf8_nil_iff.trans (reads_nil h).symm)
    show (if utf8 cs ≠ [] then _ else _) = (if t ≠ [] then _ else _)
    by_cases h0 : t ≠ []
    · rw [if_pos h0, if_pos (hn.mpr h0), (C70_insert (E := E) (s := s1) 0 h).1]
      rfl
    · rw [if_neg h0, if_neg (fun x => h0 (hn.mp x))]

/-! ## Yank -/

theorem reads_snoc {b : UInt8} (hb : b.toNat < 0x80) (h : ReadAs t cs) : ReadAs (t ++ [b]) (cs ++ [Char.ofNat b.toNat]) := by
  have hv : b.toNat.isValidChar := Or.inl (by omega)
  have hc : (Char.ofNat b.toNat).toNat = b.toNat := by
    simp [Char.ofNat, hv, Char.ofNatAux, Char.toNat]
  have he : String.utf8EncodeChar (Char.ofNat b.toNat) = [b] := by
    rw [← encodeRune_char, hc, encodeRune, if_pos hb]
    simp
  induction h with
  | nil =>
    have := ReadAs.char (c := Char.ofNat b.toNat) ReadAs.nil
    rw [he] at this
    exact this
  | char _ ih => rw [List.append_assoc]; exact .char ih
  | @bad b0 t cs hbad _ ih =>
    refine .bad (fun c hp => ?_) ih
    have hp : String.utf8EncodeChar c <+: (b0 :: t) ++ [b] := hp
    rcases List.prefix_concat_iff.mp hp with e | hp
    · have hm : b ∈ encodeRune c.toNat := by rw [encodeRune_char, e]; simp
      have := mem_encodeRune_ascii hb hm
      have e2 : encodeRune c.toNat = [b] := by
        rw [this, encodeRune, if_pos hb]; simp
      rw [encodeRune_char, e] at e2
      have := congrArg List.length e2
      simp at this
    · exact hbad c hp

theorem reads_last {ds : List Char} {c : Char} (h : ReadAs t (ds ++ [c])) (hc : c.toNat < 0x80) :
    ∃ t', t = t' ++ [UInt8.ofNat c.toNat] := by
  generalize hk : ds ++ [c] = ks at h
  induction h generalizing ds with
  | nil => simp at hk
  | @char c' t cs' hr ih =>
    cases ds with
    | nil =>
      simp at hk
      obtain ⟨rfl, rfl⟩ := hk
      have := (reads_nil hr).mpr rfl
      subst this
      refine ⟨[], ?_⟩
      rw [← encodeRune_char, encodeRune, if_pos hc]
      rfl
    | cons d ds =>
      simp at hk
      obtain ⟨t', rfl⟩ := ih hk.2
      exact ⟨_ ++ t', by rw [List.append_assoc]⟩
  | @bad b t cs' _ hr ih =>
    cases ds with
    | nil =>
      simp at hk
      obtain ⟨rfl, rfl⟩ := hk
      exact absurd hc (by decide)
    | cons d ds =>
      simp at hk
      obtain ⟨t', rfl⟩ := ih hk.2
      exact ⟨b :: t', rfl⟩

theorem trim_snoc (t : Bytes) (b : UInt8) : trimRightCRLFNUL (t ++ [b]) =
    if (b == 0x0D || b == 0x0A || b == 0) then trimRightCRLFNUL t else t ++ [b] := by
  unfold trimRightCRLFNUL
  rw [List.reverse_append]
  show ((b :: t.reverse).dropWhile _).reverse = _
  rw [List.dropWhile_cons]
  split
  · rfl
  · simp

/-- What Yank leaves away does not depend on it. -/
theorem reads_trim (h : ReadAs t cs) : ∃ ds es, ReadAs (trimRightCRLFNUL t) ds ∧ cs = ds ++ es ∧ (∀ c ∈ es, c ∈ ['\r', '\n', '\x00']) ∧
    ∀ c, ds.getLast? = some c → c ∉ ['\r', '\n', '\x00'] := by
  obtain ⟨n, hn⟩ : ∃ n, t.length = n := ⟨_, rfl⟩
  induction n generalizing t cs with
  | zero =>
    have := List.length_eq_zero_iff.mp hn
    subst this
    have := (reads_nil h).mp rfl
    subst this
    exact ⟨[], [], .nil, rfl, by simp, by simp⟩
  | succ n ih =>
    rcases List.eq_nil_or_concat t with rfl | ⟨t', b, e⟩
    · simp at hn
    rw [List.concat_eq_append] at e
    subst e
    rw [trim_snoc]
    by_cases hb : (b == 0x0D || b == 0x0A || b == 0) = true
    · rw [if_pos hb]
      obtain ⟨cs', h'⟩ := reads_exists t'
      simp only [Bool.or_eq_true, beq_iff_eq] at hb
      have hlt : b.toNat < 0x80 := by
        rcases hb with (rfl | rfl) | rfl <;> decide
      have := reads_unique h (reads_snoc hlt h')
      subst this
      obtain ⟨ds, es, h1, h2, h3, h4⟩ := ih h' (by simpa using hn)
      refine ⟨ds, es ++ [Char.ofNat b.toNat], h1, by rw [h2, List.append_assoc], ?_, h4⟩
      intro c hc
      rcases List.mem_append.mp hc with hc | hc
      · exact h3 c hc
      · rw [List.mem_singleton.mp hc]
        rcases hb with (rfl | rfl) | rfl <;> decide
    · rw [if_neg hb]
      refine ⟨cs, [], h, by simp, by simp, ?_⟩
      intro c hc hm
      obtain ⟨ds, rfl⟩ := List.getLast?_eq_some_iff.mp hc
      have hlt : c.toNat < 0x80 := by
        simp only [List.mem_cons, List.not_mem_nil, or_false] at hm
        rcases hm with rfl | rfl | rfl <;> decide
      obtain ⟨t'', e3⟩ := reads_last h hlt
      have e4 := (List.append_inj' e3 rfl).2
      simp only [List.cons.injEq, and_true] at e4
      apply hb
      rw [e4]
      simp only [List.mem_cons, List.not_mem_nil, or_false] at hm
      rcases hm with rfl | rfl | rfl <;> decide

/-- Yank inserts what is read of the clipboard, without the line ends and NULs at its end. -/
theorem C70_yank (hc : s.clip = some t) (h : ReadAs t cs) :
    ∃ ds es, cs = ds ++ es ∧ (∀ c ∈ es, c ∈ ['\r', '\n', '\x00']) ∧ (∀ c, ds.getLast? = some c → c ∉ ['\r', '\n', '\x00']) ∧
      cmdYank E s = (do
        let s ← insertAndRepaint E s (utf8 ds)
        return (s, .cont)) := by
  obtain ⟨ds, es, h1, h2, h3, h4⟩ := reads_trim h
  refine ⟨ds, es, h2, h3, h4, ?_⟩
  unfold cmdYank
  rw [hc]
  dsimp only
  rw [(C70_insert (E := E) (s := s) 0 h1).2.2]

/-! ## What is returned -/

theorem write_valid (m : Moji) : ValidUtf8 m.write := by
  induction m with
  | tab => exact ⟨['\t'], by rw [Moji.write]; decide⟩
  | raw | esc | ri | ctrl | flag => exact validUtf8_encodeRune _
  | zwj a b iha ihb => exact ValidUtf8.append (ValidUtf8.append iha (validUtf8_encodeRune _)) ihb
  | modi a b iha ihb => exact ValidUtf8.append iha ihb
  | vari a b iha ihb => exact ValidUtf8.append iha ihb

/-- The line is text at any time. -/
theorem C70_line (s : St) : ValidUtf8 s.text := by
  unfold St.text cell2string
  induction s.buf with
  | nil => exact ValidUtf8.nil
  | cons c l ih => exact ValidUtf8.append (write_valid _) ih

/-- What `ReadLine` returns is text, whatever comes in. -/
theorem C70_valid {r : RLRes} (h : readLine E w = .ok (s, r)) : ValidUtf8 r.text := by
  have fin : ∀ {s t : St} {rc r}, finish E s rc = .ok (t, r) → ValidUtf8 r.text := by
    intro s t rc r h
    unfold finish at h
    obtain ⟨s1, -, h⟩ := bind_ok.mp h
    cases pure_ok.mp h
    exact C70_line _
  have one : ∀ {s t : St} {r}, step E s = .ok (t, some r) → ValidUtf8 r.text := by
    intro s t r h
    unfold step at h
    split at h
    · cases h; exact ValidUtf8.nil
    · cases h; exact ValidUtf8.nil
    · obtain ⟨s1, -, h⟩ := bind_ok.mp h
      cases pure_ok.mp h
    · unfold execCmd at h
      obtain ⟨⟨s1, rc⟩, -, h⟩ := bind_ok.mp h
      dsimp only at h
      split at h
      · cases pure_ok.mp h
      · obtain ⟨⟨s2, r2⟩, h1, h⟩ := bind_ok.mp h
        cases pure_ok.mp h
        exact fin h1
  unfold readLine at h
  obtain ⟨s0, -, h⟩ := bind_ok.mp h
  generalize s0.input.length + 1 = n at h
  induction n generalizing s0 with
  | zero => cases h
  | succ n ih =>
    obtain ⟨⟨q, o⟩, h1, h2 | ⟨m, hm, -, h2⟩⟩ := loop_steps h
    · obtain ⟨r', hr, e⟩ := h2
      cases e
      dsimp only at hr
      subst hr
      exact one h1
    · cases hm
      exact ih _ h2

namespace Example

/-- The letter a, the first two bytes of a character of three, the letter b, a lone continuation byte and a truncated
character of four bytes. -/
def garbled : Bytes := [0x61, 0xE3, 0x81, 0x62, 0x80, 0xF0, 0x9F, 0x98]

/-- It is read so. -/
theorem garbled_reads : ReadAs garbled ['a', '\uFFFD', '\uFFFD', 'b', '\uFFFD', '\uFFFD', '\uFFFD', '\uFFFD'] := by
  obtain ⟨cs, h⟩ := reads_exists garbled
  have e : runesOf garbled = ['a', '\uFFFD', '\uFFFD', 'b', '\uFFFD', '\uFFFD', '\uFFFD', '\uFFFD'].map Char.toNat := by
    simp [runesOf, decodeRune, garbled, inRange, runeError]
  have := char_map_inj ((reads_runes h).symm.trans e)
  rw [this] at h
  exact h

/-- Not vacuous: the garbled text as the default text; a and b are deleted and the result is text; and the history line as well. -/
example : outcome (readLine { env plain with default := garbled } { cursor := 8, input := keys ["\x01", "\x04", "\r"] }) =
      .inr (utf8 ['\uFFFD', '\uFFFD', 'b', '\uFFFD', '\uFFFD', '\uFFFD', '\uFFFD'], .nil) ∧
    outcome (readLine { env plain with history := [garbled] } { input := keys ["\x10", "\r"] }) =
      .inr (utf8 ['a', '\uFFFD', '\uFFFD', 'b', '\uFFFD', '\uFFFD', '\uFFFD', '\uFFFD'], .nil) ∧
    outcome (readLine (env plain) { clip := some (garbled ++ [0x0D, 0x0A]), input := keys ["\x19", "\r"] }) =
      .inr (utf8 ['a', '\uFFFD', '\uFFFD', 'b', '\uFFFD', '\uFFFD', '\uFFFD', '\uFFFD'], .nil) := by
  decide +kernel

end Example

/-- **Refuted** (for searching): a history line that is not text is not found by the characters shown for it, while the text
that is read there is found. -/
theorem C70_refuted_search : ∃ (E : Env) (w : World) (t : Bytes) (cs : List Char), ReadAs t cs ∧ E.history = [t] ∧
    Example.outcome (readLine E w) = .inr ([], .nil) ∧
    Example.outcome (readLine { E with history := [utf8 cs] } w) = .inr (utf8 cs, .nil) :=
  ⟨{ Example.env Example.plain with history := [Example.garbled] },
    { input := Example.keys ["\x12", "b", "\uFFFD", "\r", "\r"] }, _, _, Example.garbled_reads, rfl, by decide +kernel, by decide +kernel⟩

/-- **Refuted** (for predictions): the same. -/
theorem C70_refuted_predict : ∃ (E : Env) (w : World) (t : Bytes) (cs : List Char), ReadAs t cs ∧ E.history = [t] ∧
    Example.outcome (readLine E w) ≠ Example.outcome (readLine { E with history := [utf8 cs] } w) :=
  ⟨{ Example.env Example.plain with history := [Example.garbled], predictColor := (b "\x1B[3m", b "\x1B[0m") },
    { input := Example.keys ["a", "\uFFFD", "\x06", "\r"] }, _, _, Example.garbled_reads, rfl, by decide +kernel⟩

/-- **Refuted** (for browsing several times): whether an entry has been changed is decided by comparing bytes, too, so that an
edit that was taken back is forgotten where C17 says that it comes back. -/
theorem C70_refuted_browse : ∃ (E : Env) (w : World) (t : Bytes) (cs : List Char), ReadAs t cs ∧ E.history = [t] ∧
    Example.outcome (readLine E w) = .inr (utf8 cs, .nil) ∧
    Example.outcome (readLine { E with history := [utf8 cs] } w) = .inr (utf8 cs ++ b "x", .nil) :=
  ⟨{ Example.env Example.plain with history := [Example.garbled] },
    { input := Example.keys ["\x10", "x", "\x0e", "\x10", "\x08", "\x0e", "\x10", "\r"] }, _, _, Example.garbled_reads, rfl,
    by decide +kernel, by decide +kernel⟩

end Readline
