import Verif.Spec.Prompt
import Verif.Spec.Example
import Verif.Proof.Utf8
import Verif.Proof.Session
import Verif.Props.C06
/-!
# C25: the prompt width ignores escape sequences and earlier lines

A prompt is a list of pieces (`Spec/Prompt.lean`): characters, line ends, backspaces, `ESC …
letter` and `ESC ] … BEL` sequences; the last may be followed by the beginning of a sequence that
is not finished.  `C25_partial`: what `cutEscapeSequenceAndOldLine` (main.go:81-114) leaves is the
last line with the backspaces applied.

False in one case (`C25_refuted`): a backspace does not remove a U+FFFD, because
`utf8.DecodeLastRune` cannot be told apart from a failure.
-/
namespace Readline
open Spec

/-! ## The last rune -/

theorem encodeRune_shape (r : Rune) (h : isScalar r = true) :
    ∃ b t, encodeRune r = b :: t ∧ t.length ≤ 3 ∧ (∀ x ∈ t, runeStart x = false) ∧
      (t = [] → b.toNat < 0x80 ∧ r = b.toNat) ∧ (t ≠ [] → runeStart b = true ∧ ∀ x ∈ t, 0x80 ≤ x.toNat) := by
  have h' := isScalar_iff.mp h
  have cont : ∀ n : Nat, n < 64 → runeStart (UInt8.ofNat (0x80 + n)) = false ∧
      0x80 ≤ (UInt8.ofNat (0x80 + n)).toNat := by
    intro n hn
    have : (UInt8.ofNat (0x80 + n)).toNat = 0x80 + n := by
      rw [UInt8.toNat_ofNat']; omega
    constructor
    · unfold runeStart inRange
      rw [this]
      simp
      omega
    · rw [this]; omega
  have start : ∀ n : Nat, 0xC0 ≤ n → n < 256 → runeStart (UInt8.ofNat n) = true := by
    intro n h1 h2
    have : (UInt8.ofNat n).toNat = n := by rw [UInt8.toNat_ofNat']; omega
    unfold runeStart inRange
    rw [this]
    simp
    omega
  unfold encodeRune
  split
  · refine ⟨_, [], rfl, by simp, by simp, fun _ => ?_, fun h => absurd rfl h⟩
    have : (UInt8.ofNat r).toNat = r := by rw [UInt8.toNat_ofNat']; omega
    rw [this]; exact ⟨by assumption, rfl⟩
  · split
    · refine ⟨_, [_], rfl, by simp, ?_, by simp, fun _ => ⟨?_, ?_⟩⟩
      · intro x hx; simp only [List.mem_cons, List.not_mem_nil, or_false] at hx; subst hx; exact (cont (r % 64) (by omega)).1
      · exact start _ (by omega) (by omega)
      · intro x hx; simp only [List.mem_cons, List.not_mem_nil, or_false] at hx; subst hx; exact (cont (r % 64) (by omega)).2
    · rw [if_neg (by simp [h])]
      split
      · refine ⟨_, [_, _], rfl, by simp, ?_, by simp, fun _ => ⟨?_, ?_⟩⟩
        · intro x hx
          simp only [List.mem_cons, List.not_mem_nil, or_false] at hx
          rcases hx with rfl | rfl
          · exact (cont (r / 64 % 64) (by omega)).1
          · exact (cont (r % 64) (by omega)).1
        · exact start _ (by omega) (by omega)
        · intro x hx
          simp only [List.mem_cons, List.not_mem_nil, or_false] at hx
          rcases hx with rfl | rfl
          · exact (cont (r / 64 % 64) (by omega)).2
          · exact (cont (r % 64) (by omega)).2
      · refine ⟨_, [_, _, _], rfl, by simp, ?_, by simp, fun _ => ⟨?_, ?_⟩⟩
        · intro x hx
          simp only [List.mem_cons, List.not_mem_nil, or_false] at hx
          rcases hx with rfl | rfl | rfl
          · exact (cont (r / 4096 % 64) (by omega)).1
          · exact (cont (r / 64 % 64) (by omega)).1
          · exact (cont (r % 64) (by omega)).1
        · exact start _ (by omega) (by omega)
        · intro x hx
          simp only [List.mem_cons, List.not_mem_nil, or_false] at hx
          rcases hx with rfl | rfl | rfl
          · exact (cont (r / 4096 % 64) (by omega)).2
          · exact (cont (r / 64 % 64) (by omega)).2
          · exact (cont (r % 64) (by omega)).2

theorem lastStart_back (a : Bytes) (b : UInt8) (t u : Bytes) (n : Nat) (hb : runeStart b = true)
    (ht : ∀ x ∈ t, runeStart x = false) (hn : t.length < n) :
    lastStart (a ++ b :: t ++ u) (a.length + 1 + t.length) n = a.length := by
  induction n generalizing t u with
  | zero => omega
  | succ n ih =>
    rw [lastStart]
    rw [if_neg (by omega)]
    rcases List.eq_nil_or_concat t with rfl | ⟨t', x, rfl⟩
    · have : (a ++ [b] ++ u).getD (a.length + 1 + ([] : Bytes).length - 1) 0 = b := by
        simp [List.getD]
      rw [this, if_pos hb]
      simp
    · rw [List.concat_eq_append] at *
      have hx : (a ++ b :: (t' ++ [x]) ++ u).getD (a.length + 1 + (t' ++ [x]).length - 1) 0 = x := by
        have : a ++ b :: (t' ++ [x]) ++ u = (a ++ b :: t') ++ (x :: u) := by simp
        rw [this, List.getD_eq_getElem?_getD, List.getElem?_append_right (by simp; omega)]
        have : a.length + 1 + (t' ++ [x]).length - 1 - (a ++ b :: t').length = 0 := by
          simp only [List.length_append, List.length_cons, List.length_nil]; omega
        rw [this]
        rfl
      rw [hx, if_neg (by rw [ht x (by simp)]; decide)]
      have e1 : a ++ b :: (t' ++ [x]) ++ u = a ++ b :: t' ++ (x :: u) := by simp
      have e2 : a.length + 1 + (t' ++ [x]).length - 1 = a.length + 1 + t'.length := by
        simp only [List.length_append, List.length_cons, List.length_nil]; omega
      rw [e1, e2]
      exact ih t' (x :: u) (fun y hy => ht y (by simp [hy])) (by simp at hn; omega)

/-- The last rune of a text that ends with an encoded scalar value. -/
theorem decodeLastRune_append (a : Bytes) {r : Rune} (h : isScalar r = true) :
    decodeLastRune (a ++ encodeRune r) = (r, (encodeRune r).length) := by
  obtain ⟨b, t, he, hlen, hcont, h1, h2⟩ := encodeRune_shape r h
  have hd := decode_encode h []
  rw [List.append_nil] at hd
  rw [he] at hd ⊢
  unfold decodeLastRune
  rw [if_neg (by simp)]
  dsimp only
  rcases List.eq_nil_or_concat t with rfl | ⟨t', x, rfl⟩
  · obtain ⟨h3, h4⟩ := h1 rfl
    have : (a ++ [b]).getD ((a ++ [b]).length - 1) 0 = b := by simp [List.getD]
    rw [this, if_pos h3, h4]
    rfl
  · rw [List.concat_eq_append] at *
    obtain ⟨h3, h4⟩ := h2 (by simp)
    have hx : (a ++ b :: (t' ++ [x])).getD ((a ++ b :: (t' ++ [x])).length - 1) 0 = x := by
      have : a ++ b :: (t' ++ [x]) = (a ++ b :: t') ++ [x] := by simp
      rw [this]
      simp [List.getD]
    have hge := h4 x (by simp)
    rw [hx, if_neg (by omega)]
    have e1 : a ++ b :: (t' ++ [x]) = a ++ b :: t' ++ [x] := by simp
    have e2 : (a ++ b :: (t' ++ [x])).length - 1 = a.length + 1 + t'.length := by simp; omega
    have hs : lastStart (a ++ b :: (t' ++ [x])) ((a ++ b :: (t' ++ [x])).length - 1) 3 = a.length := by
      rw [e2, e1]
      exact lastStart_back a b t' [x] 3 h3 (fun y hy => hcont y (by simp [hy])) (by simp at hlen; omega)
    rw [hs, List.drop_left, hd, if_neg]
    simp

/-! ## The pieces -/

theorem utf8_append_text (a c : List Char) : utf8 (a ++ c) = utf8 a ++ utf8 c := by simp [utf8]

theorem encodeChar_eq (c : Char) : utf8 [c] = encodeRune c.toNat := by
  rw [utf8_eq_encodeRunes]; simp [encodeRunes]

/-- Bytes of an ordinary character are appended. -/
theorem cutStep_plain (l : Bytes) (b : UInt8) (h : b ≠ 0x0D ∧ b ≠ 0x0A ∧ b ≠ 0x1B ∧ b ≠ 0x08) :
    cutStep { buffer := l } b = { buffer := l ++ [b] } := by
  unfold cutStep
  rw [if_neg (by simp [h.1, h.2.1]), if_neg h.2.2.1]
  simp [h.2.2.2]

theorem cut_plain (bs : Bytes) (l : Bytes)
    (h : ∀ b ∈ bs, b ≠ 0x0D ∧ b ≠ 0x0A ∧ b ≠ 0x1B ∧ b ≠ 0x08) :
    bs.foldl cutStep { buffer := l } = { buffer := l ++ bs } := by
  induction bs generalizing l with
  | nil => simp
  | cons b bs ih =>
    rw [List.foldl_cons, cutStep_plain l b (h b (by simp)), ih _ (fun x hx => h x (by simp [hx]))]
    simp

theorem cut_esc (bs : Bytes) (l : Bytes) (h : ∀ b ∈ bs, inside b ∧ ¬ letter b ∧ b ≠ 0x5D) :
    bs.foldl cutStep { buffer := l, esc := true } = { buffer := l, esc := true } := by
  induction bs with
  | nil => rfl
  | cons b bs ih =>
    obtain ⟨⟨h1, h2, h3⟩, h4, h5⟩ := h b (by simp)
    have : cutStep { buffer := l, esc := true } b = { buffer := l, esc := true } := by
      unfold cutStep
      rw [if_neg (by simp [h1, h2]), if_neg h3]
      simp only [Bool.false_eq_true, if_false, if_true, if_neg h5]
      rw [if_neg]
      intro h
      exact h4 h
    rw [List.foldl_cons, this]
    exact ih (fun x hx => h x (by simp [hx]))

theorem cut_title (bs : Bytes) (l : Bytes) (h : ∀ b ∈ bs, inside b ∧ b ≠ 0x07) :
    bs.foldl cutStep { buffer := l, esc := true, title := true } =
      { buffer := l, esc := true, title := true } := by
  induction bs with
  | nil => rfl
  | cons b bs ih =>
    obtain ⟨⟨h1, h2, h3⟩, h4⟩ := h b (by simp)
    have : cutStep { buffer := l, esc := true, title := true } b =
        { buffer := l, esc := true, title := true } := by
      unfold cutStep
      rw [if_neg (by simp [h1, h2]), if_neg h3]
      simp [h4]
    rw [List.foldl_cons, this]
    exact ih (fun x hx => h x (by simp [hx]))

theorem char_bytes_plain (c : Char) (h : (Piece.char c).Good) :
    ∀ b ∈ utf8 [c], b ≠ 0x0D ∧ b ≠ 0x0A ∧ b ≠ 0x1B ∧ b ≠ 0x08 := by
  intro b hb
  rw [encodeChar_eq] at hb
  have key : ∀ k : UInt8, k.toNat < 0x80 → c ≠ Char.ofNat k.toNat → b ≠ k := by
    rintro k hk hc rfl
    have := mem_encodeRune_ascii hk hb
    apply hc
    rw [← this, Char.ofNat_toNat]
  obtain ⟨h1, h2, h3, h4⟩ := h
  exact ⟨key _ (by decide) h1, key _ (by decide) h2, key _ (by decide) h3, key _ (by decide) h4⟩

/-- One piece. -/
theorem cut_piece (p : Piece) (hp : p.Good) (line : List Char)
    (hb : p = .back → line.getLast? ≠ some '�') :
    p.bytes.foldl cutStep { buffer := utf8 line } = { buffer := utf8 (p.apply line) } := by
  cases p with
  | char c =>
    show (utf8 [c]).foldl cutStep _ = _
    rw [cut_plain _ _ (char_bytes_plain c hp), ← utf8_append_text]
    rfl
  | lineEnd lf => cases lf <;> rfl
  | back =>
    show cutStep { buffer := utf8 line } 0x08 = _
    unfold cutStep
    rw [if_neg (by decide), if_neg (by decide)]
    simp only [Bool.false_eq_true, if_false, if_true]
    rcases List.eq_nil_or_concat line with rfl | ⟨l, c, rfl⟩
    · rfl
    · rw [List.concat_eq_append] at *
      rw [utf8_append_text, encodeChar_eq, decodeLastRune_append _ (char_isScalar c)]
      have hc : c.toNat ≠ runeError := by
        intro e
        apply hb rfl
        simp
        have : Char.ofNat c.toNat = Char.ofNat runeError := by rw [e]
        rw [Char.ofNat_toNat] at this
        rw [this]
        rfl
      simp only
      rw [if_pos hc]
      simp [Piece.apply]
  | csi body f =>
    show (0x1B :: body ++ [f]).foldl cutStep _ = _
    rw [List.cons_append, List.foldl_cons, List.foldl_append]
    have h0 : cutStep { buffer := utf8 line } 0x1B = { buffer := utf8 line, esc := true } := by
      unfold cutStep
      rw [if_neg (by decide), if_pos rfl]
    rw [h0, cut_esc _ _ hp.2, List.foldl_cons, List.foldl_nil]
    have hf : letter f := hp.1
    have h1 : f ≠ 0x0D ∧ f ≠ 0x0A ∧ f ≠ 0x1B ∧ f ≠ 0x5D := by
      refine ⟨?_, ?_, ?_, ?_⟩ <;> · rintro rfl; exact absurd hf (by unfold letter; decide)
    unfold cutStep
    rw [if_neg (by simp [h1.1, h1.2.1]), if_neg h1.2.2.1]
    simp only [Bool.false_eq_true, if_false, if_true, if_neg h1.2.2.2]
    have hf' : (0x41 ≤ f ∧ f ≤ 0x5A) ∨ (0x61 ≤ f ∧ f ≤ 0x7A) := hf
    rw [if_pos hf']
    rfl
  | osc body =>
    show (0x1B :: 0x5D :: body ++ [0x07]).foldl cutStep _ = _
    rw [List.cons_append, List.cons_append, List.foldl_cons, List.foldl_cons, List.foldl_append]
    have h0 : cutStep (cutStep { buffer := utf8 line } 0x1B) 0x5D =
        { buffer := utf8 line, esc := true, title := true } := by
      unfold cutStep
      simp
    rw [h0, cut_title _ _ hp, List.foldl_cons, List.foldl_nil]
    unfold cutStep
    simp [Piece.apply]

theorem cut_pieces (ps : List Piece) (hg : ∀ p ∈ ps, p.Good) (hb : NoBackOverReplacement ps) :
    (promptBytes ps).foldl cutStep {} = { buffer := utf8 (lastLine ps) } := by
  generalize hn : ps.length = n
  induction n generalizing ps with
  | zero => rw [List.length_eq_zero_iff.mp hn]; rfl
  | succ n ih =>
    rcases List.eq_nil_or_concat ps with rfl | ⟨ps, p, rfl⟩
    · simp at hn
    rw [List.concat_eq_append] at *
    have ih := ih ps (fun q hq => hg q (by simp [hq])) (by
      intro a c e
      exact hb a (c ++ [p]) (by rw [e]; simp)) (by simpa using hn)
    unfold promptBytes lastLine at *
    rw [List.flatMap_append, List.foldl_append, ih, List.foldl_append]
    have : List.flatMap Piece.bytes [p] = p.bytes := by simp
    rw [this, List.foldl_cons, List.foldl_nil]
    apply cut_piece p (hg p (by simp))
    rintro rfl
    exact hb ps [] rfl

/-- The beginning of an escape sequence that is not finished. -/
def Spec.Unfinished (t : Bytes) : Prop :=
  t = [] ∨ (∃ body, t = 0x1B :: body ∧ ∀ b ∈ body, inside b ∧ ¬ letter b ∧ b ≠ 0x5D) ∨
    (∃ body, t = 0x1B :: 0x5D :: body ∧ ∀ b ∈ body, inside b ∧ b ≠ 0x07)

/-- **C25**, the text: escape sequences, earlier lines and what backspaces remove do not count. -/
theorem C25_partial {ps : List Piece} {t : Bytes} (hg : ∀ p ∈ ps, p.Good)
    (hb : NoBackOverReplacement ps) (ht : Unfinished t) :
    cutEscapeSequenceAndOldLine (promptBytes ps ++ t) = utf8 (lastLine ps) := by
  unfold cutEscapeSequenceAndOldLine
  rw [List.foldl_append, cut_pieces ps hg hb]
  have h0 : cutStep { buffer := utf8 (lastLine ps) } 0x1B =
      { buffer := utf8 (lastLine ps), esc := true } := by
    unfold cutStep
    rw [if_neg (by decide), if_pos rfl]
  rcases ht with rfl | ⟨body, rfl, h⟩ | ⟨body, rfl, h⟩
  · rfl
  · rw [List.foldl_cons, h0, cut_esc _ _ h]
  · rw [List.foldl_cons, List.foldl_cons, h0]
    have h1 : cutStep { buffer := utf8 (lastLine ps), esc := true } 0x5D =
        { buffer := utf8 (lastLine ps), esc := true, title := true } := by
      unfold cutStep; simp
    rw [h1, cut_title _ _ h]

/-- The column for a prompt of which `l` is left. -/
theorem startSt_column {E : Env} {w : World} {s : St} {prompt : Nat → Bytes} {l : Bytes}
    (hp : E.prompt = some prompt) (he : E.promptErr = none)
    (hl : cutEscapeSequenceAndOldLine (prompt w.promptN) = l) (h : startSt E w = .ok s) :
    s.topColumn =
      let n := columnAfter E.cfg (stringToMoji E.cfg l) 0
      if n ≥ w.termWidth - 3 then 0 else n := by
  have hw := C06_width E.cfg l
  have hprompt : (promptSt E w).topColumn =
      let n := columnAfter E.cfg (stringToMoji E.cfg l) 0
      if n ≥ w.termWidth - 3 then 0 else n := by
    unfold promptSt callPromptWriter
    simp only [hp, he]
    rw [hl, hw]
    dsimp only [St.emit]
    split
    · rename_i hc; exact congrArg St.topColumn (if_pos hc)
    · rename_i hc; exact congrArg St.topColumn (if_neg hc)
  rw [← hprompt]
  unfold startSt at h
  obtain ⟨⟨s1, ins⟩, h1, h⟩ := bind_ok.mp h
  obtain ⟨s2, h2, h⟩ := bind_ok.mp h
  simp only [pure_ok] at h
  subst h
  obtain ⟨-, -, -, -, ⟨b, u, e⟩, -⟩ := insertString_ok h1
  dsimp only at e
  unfold repaintAfterPrompt at h2
  obtain ⟨-, b2, o2, e2⟩ := (repaint_same h2).1
  rw [e2]
  show (updateSuffix E (resetViewStart E
    (if s1.cursor > s1.len then { s1 with cursor := s1.len } else s1))).topColumn = _
  have hu : ∀ x : St, (updateSuffix E x).topColumn = x.topColumn := by
    intro x; unfold updateSuffix; split <;> (try split) <;> rfl
  rw [hu]
  show (if s1.cursor > s1.len then { s1 with cursor := s1.len } else s1).topColumn = _
  split <;> rw [e]

/-- **C25**, the column: editing starts behind the units of the last line of the prompt, or at the
start of a new line if there would be no room (main.go:193-203).  -/
theorem C25_column {E : Env} {w : World} {s : St} {prompt : Nat → Bytes} {ps : List Piece}
    {t : Bytes} (hp : E.prompt = some prompt) (he : E.promptErr = none)
    (hps : prompt w.promptN = promptBytes ps ++ t)
    (hg : ∀ p ∈ ps, p.Good) (hb : NoBackOverReplacement ps) (ht : Unfinished t)
    (h : startSt E w = .ok s) :
    s.topColumn =
      let n := columnAfter E.cfg (stringToMoji E.cfg (utf8 (lastLine ps))) 0
      if n ≥ w.termWidth - 3 then 0 else n :=
  startSt_column hp he (hps ▸ C25_partial hg hb ht) h

/-- The same with the widths of the units added up.  `TabsFirst` excludes tabs behind joined characters, see C06. -/
theorem C25_column_partial {E : Env} {w : World} {s : St} {prompt : Nat → Bytes} {ps : List Piece}
    {t : Bytes} (hp : E.prompt = some prompt) (he : E.promptErr = none)
    (hps : prompt w.promptN = promptBytes ps ++ t)
    (hg : ∀ p ∈ ps, p.Good) (hb : NoBackOverReplacement ps) (ht : Unfinished t)
    (htab : TabsFirst E.cfg (runesOf (utf8 (lastLine ps)))) (h : startSt E w = .ok s) :
    s.topColumn =
      let n := ((stringToMoji E.cfg (utf8 (lastLine ps))).map (Moji.width E.cfg)).sum
      if n ≥ w.termWidth - 3 then 0 else n := by
  rw [C25_column hp he hps hg hb ht h, ← C06_width_partial E.cfg _ htab, ← C06_width]

section
open Example

/-- A backspace after U+FFFD removes nothing. -/
theorem C25_refuted : cutEscapeSequenceAndOldLine (promptBytes [.char '�', .back]) ≠
    utf8 (lastLine [.char '�', .back]) := by decide +kernel

/-- A title, a first line, a red dollar sign, a typing mistake that is corrected. -/
def Example.fancy : List Piece :=
  [.osc (b "0;title"), .char '~', .lineEnd true, .csi (b "[31;1") 0x6D, .char '漢', .char '%',
   .back, .char '$', .csi (b "[0") 0x6D, .char ' ']

example : lastLine fancy = ['漢', '$', ' '] := rfl
example : promptBytes fancy = b "\x1b]0;title\x07~\n\x1b[31;1m漢%\x08$\x1b[0m " := by decide +kernel
example : ∀ p ∈ fancy, p.Good := by
  unfold fancy
  simp only [List.mem_cons, forall_eq_or_imp]
  refine ⟨?_, ?_, trivial, ?_, ?_, ?_, trivial, ?_, ?_, ?_, by simp⟩
  all_goals unfold Piece.Good
  · unfold inside; decide +kernel
  · decide
  · unfold letter inside; decide +kernel
  · decide
  · decide
  · decide
  · unfold letter inside; decide +kernel
  · decide
end

end Readline
