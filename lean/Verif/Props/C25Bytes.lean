import Verif.Proof.Trim
/-!
# C25 for prompts of any bytes

`C25_every`: every byte string is read as parts (`Spec.Scrap`): bytes, line ends, backspaces and
sequences, the last of which may be unfinished, and what `cutEscapeSequenceAndOldLine`
(main.go:81-114) leaves is what these parts leave on the last line.  `C25_every_column`: the column
where editing starts.

`C25_refuted_st`: a window title that ends with `ESC \` and not with BEL swallows the rest of the
prompt.
-/
namespace Readline
open Spec

theorem wipe_nil (l : Bytes) : wipe [] l = l := by simp [wipe]

theorem wipe_cons (x : UInt8) (t l : Bytes) : wipe (x :: t) l = wipe t (if x = 0x0D ∨ x = 0x0A then [] else l) := by
  unfold wipe
  by_cases h1 : 0x0D ∈ t ∨ 0x0A ∈ t
  · rw [if_pos h1, if_pos (h1.imp (by simp +contextual) (by simp +contextual))]
  · rw [if_neg h1]
    by_cases h2 : x = 0x0D ∨ x = 0x0A
    · rw [if_pos h2, if_pos (h2.imp (by rintro rfl; simp) (by rintro rfl; simp))]
    · rw [if_neg h2, if_neg]
      intro h
      simp only [List.mem_cons] at h
      rcases h with (h | h) | (h | h)
      · exact h2 (.inl h.symm)
      · exact h1 (.inl h)
      · exact h2 (.inr h.symm)
      · exact h1 (.inr h)

theorem wipe_append (t u l : Bytes) : wipe (t ++ u) l = wipe u (wipe t l) := by
  induction t generalizing l with
  | nil => rw [wipe_nil]; rfl
  | cons x t ih => rw [List.cons_append, wipe_cons, ih, wipe_cons]

theorem cutStep_break (st : CutSt) {x : UInt8} (h : x = 0x0D ∨ x = 0x0A) : cutStep st x = { st with buffer := [] } := by
  unfold cutStep; rw [if_pos h]

theorem cutStep_escape (st : CutSt) : cutStep st 0x1B = { st with esc := true } := by
  unfold cutStep
  rw [if_neg (by decide), if_pos rfl]

/-- Bytes that do not end a sequence. -/
theorem cut_within (t l : Bytes) (h : NoEnd t) :
    t.foldl cutStep { buffer := l, esc := true } = { buffer := wipe t l, esc := true } := by
  induction t generalizing l with
  | nil => rw [wipe_nil]; rfl
  | cons x t ih =>
    obtain ⟨h1, h2⟩ := h x (by simp)
    rw [List.foldl_cons, wipe_cons, ← ih _ (fun b hb => h b (by simp [hb]))]
    congr 1
    by_cases h0 : x = 0x0D ∨ x = 0x0A
    · rw [cutStep_break _ h0, if_pos h0]
    · rw [if_neg h0]
      by_cases h3 : x = 0x1B
      · subst h3; rw [cutStep_escape]
      · unfold cutStep
        rw [if_neg h0, if_neg h3]
        simp only [Bool.false_eq_true, if_false, if_true, if_neg h2]
        rw [if_neg]
        intro h
        exact h1 h

theorem cut_heading (t l : Bytes) (h : ∀ b ∈ t, b ≠ 0x07) :
    t.foldl cutStep { buffer := l, esc := true, title := true } =
      { buffer := wipe t l, esc := true, title := true } := by
  induction t generalizing l with
  | nil => rw [wipe_nil]; rfl
  | cons x t ih =>
    have h1 := h x (by simp)
    rw [List.foldl_cons, wipe_cons, ← ih _ (fun b hb => h b (by simp [hb]))]
    congr 1
    by_cases h0 : x = 0x0D ∨ x = 0x0A
    · rw [cutStep_break _ h0, if_pos h0]
    · rw [if_neg h0]
      by_cases h3 : x = 0x1B
      · subst h3; rw [cutStep_escape]
      · unfold cutStep
        rw [if_neg h0, if_neg h3]
        simp [h1]

theorem letter_ne {f : UInt8} (hf : letter f) : f ≠ 0x0D ∧ f ≠ 0x0A ∧ f ≠ 0x1B ∧ f ≠ 0x5D := by
  refine ⟨?_, ?_, ?_, ?_⟩ <;> · rintro rfl; exact absurd hf (by unfold letter; decide)

theorem cut_final (l : Bytes) {f : UInt8} (hf : letter f) :
    cutStep { buffer := l, esc := true } f = { buffer := l } := by
  obtain ⟨h1, h2, h3, h4⟩ := letter_ne hf
  unfold cutStep
  rw [if_neg (by simp [h1, h2]), if_neg h3]
  simp only [Bool.false_eq_true, if_false, if_true, if_neg h4]
  have hf' : (0x41 ≤ f ∧ f ≤ 0x5A) ∨ (0x61 ≤ f ∧ f ≤ 0x7A) := hf
  rw [if_pos hf']

theorem cut_opens (l : Bytes) :
    cutStep { buffer := l, esc := true } 0x5D = { buffer := l, esc := true, title := true } := by
  unfold cutStep; simp

/-- The last character, if there is one. -/
theorem decodeLast_real {l : Bytes} (h : (decodeLastRune l).1 ≠ runeError) :
    ∃ c : Char, c ≠ '�' ∧ l = l.take (l.length - (decodeLastRune l).2) ++ utf8 [c] := by
  by_cases h0 : l = []
  · subst h0; exact absurd rfl h
  have key : ∃ c : Char, utf8 [c] <:+ l := by
    unfold decodeLastRune at h
    rw [if_neg h0] at h
    dsimp only at h
    split at h
    · rename_i hb
      rcases List.eq_nil_or_concat l with rfl | ⟨t', x, rfl⟩
      · exact absurd rfl h0
      rw [List.concat_eq_append] at *
      have hx : (t' ++ [x]).getD ((t' ++ [x]).length - 1) 0 = x := by simp [List.getD]
      rw [hx] at hb
      obtain ⟨c, hc⟩ := exists_char_of_isScalar (r := x.toNat) (isScalar_iff.mpr (Or.inl (by omega)))
      refine ⟨c, t', ?_⟩
      rw [utf8_one, hc]
      unfold encodeRune
      rw [if_pos hb]
      simp
    · split at h
      · exact absurd rfl h
      · rename_i hl
        generalize hk : lastStart l (l.length - 1) 3 = k at *
        have hd : l.drop k ≠ [] := by
          intro e
          rw [e] at h
          exact h (by decide)
        obtain ⟨y, t, e⟩ := List.exists_cons_of_ne_nil hd
        rw [e] at h hl
        rcases decode_prefix y t with e' | ⟨z, hz⟩
        · rw [e'] at h; exact absurd rfl h
        · obtain ⟨c, hc⟩ := exists_char_of_isScalar (decode_isScalar (y :: t))
          have hz' : utf8 [c] ++ z = y :: t := by rw [utf8_one, hc]; exact hz
          have hdec := decode_front c z
          rw [hz'] at hdec
          have hlen : (utf8 [c]).length + z.length = l.length - k := by
            have := congrArg List.length hz'
            rw [← e, List.length_append, List.length_drop] at this
            exact this
          have hkl : k < l.length := by
            have : (l.drop k).length ≠ 0 := by rw [e]; simp
            rw [List.length_drop] at this
            omega
          have hz0 : z = [] := by
            rw [hdec] at hl
            apply List.eq_nil_of_length_eq_zero
            omega
          refine ⟨c, l.take k, ?_⟩
          rw [hz0, List.append_nil] at hz'
          rw [hz', ← e, List.take_append_drop]
  obtain ⟨c, a, rfl⟩ := key
  rw [decode_behind] at h ⊢
  refine ⟨c, ?_, ?_⟩
  · rintro rfl; exact h rfl
  · rw [List.length_append, Nat.add_sub_cancel, List.take_left' rfl]

theorem cutStep_back (l : Bytes) : ∃ l', BackFrom l l' ∧ cutStep { buffer := l } 0x08 = { buffer := l' } := by
  by_cases h : (decodeLastRune l).1 = runeError
  · refine ⟨l, .inr ⟨rfl, ?_⟩, ?_⟩
    · rintro a c rfl
      rw [decode_behind] at h
      have h : c.toNat = runeError := h
      have : Char.ofNat c.toNat = Char.ofNat runeError := by rw [h]
      rw [Char.ofNat_toNat] at this
      rw [this]; rfl
    · unfold cutStep
      simp [h]
  · obtain ⟨c, h1, h2⟩ := decodeLast_real h
    refine ⟨_, .inl ⟨c, h1, h2⟩, ?_⟩
    unfold cutStep
    simp [h]

theorem backFrom_unique {l a c : Bytes} (h : BackFrom l a) (h' : BackFrom l c) : a = c := by
  rcases h with ⟨x, hx, e⟩ | ⟨rfl, h⟩ <;> rcases h' with ⟨y, hy, e'⟩ | ⟨rfl, h'⟩
  · have h1 := decode_behind x a
    have h2 := decode_behind y c
    rw [← e] at h1
    rw [← e', h1] at h2
    have hl : (utf8 [x]).length = (utf8 [y]).length := (Prod.ext_iff.mp h2).2
    rw [e] at e'
    exact List.append_inj_left' e' hl
  · exact absurd (h' _ _ e) hx
  · exact absurd (h _ _ e') hy
  · rfl

/-- One part. -/
theorem cut_scrap {p : Scrap} (hp : p.Sound) {l l' : Bytes} (h : p.Turns l l') :
    p.bytes.foldl cutStep { buffer := l } = { buffer := l' } := by
  cases p with
  | byte x =>
    have h : l' = l ++ [x] := h
    rw [h]
    exact cutStep_plain l x hp
  | lineEnd lf =>
    have h : l' = [] := h
    rw [h]
    cases lf <;> rfl
  | back =>
    obtain ⟨m, h1, h2⟩ := cutStep_back l
    rw [backFrom_unique h h1]
    exact h2
  | seq body f =>
    have h : l' = wipe body l := h
    show (0x1B :: body ++ [f]).foldl cutStep _ = _
    rw [List.cons_append, List.foldl_cons, List.foldl_append, cutStep_escape, cut_within _ _ hp.1, h]
    exact cut_final _ hp.2
  | title pre body =>
    have h : l' = wipe (pre ++ body) l := h
    show (0x1B :: pre ++ 0x5D :: body ++ [0x07]).foldl cutStep _ = _
    have e : (0x1B :: pre ++ 0x5D :: body ++ [0x07] : Bytes) = 0x1B :: (pre ++ (0x5D :: (body ++ [0x07]))) := by simp
    rw [e, List.foldl_cons, cutStep_escape, List.foldl_append, cut_within _ _ hp.1, List.foldl_cons,
      cut_opens, List.foldl_append, cut_heading _ _ hp.2, h, wipe_append]
    unfold cutStep
    simp

/-- **C25** for any bytes: however a prompt is read as parts, what is left is what the parts leave. -/
theorem C25_bytes {ps : List Scrap} {t l : Bytes} (hs : ∀ p ∈ ps, p.Sound) (ht : Unended t) (h : TurnsAll ps [] l) :
    cutEscapeSequenceAndOldLine (ps.flatMap Scrap.bytes ++ t) = wipe t l := by
  have main : ∀ (ps : List Scrap) (m : Bytes), (∀ p ∈ ps, p.Sound) → TurnsAll ps m l →
      (ps.flatMap Scrap.bytes).foldl cutStep { buffer := m } = { buffer := l } := by
    intro ps
    induction ps with
    | nil => intro m _ h; have h : l = m := h; rw [h]; rfl
    | cons p ps ih =>
      rintro m hs ⟨k, h1, h2⟩
      rw [List.flatMap_cons, List.foldl_append, cut_scrap (hs p (by simp)) h1]
      exact ih k (fun q hq => hs q (by simp [hq])) h2
  unfold cutEscapeSequenceAndOldLine
  rw [List.foldl_append, main ps [] hs h]
  rcases ht with rfl | ⟨body, rfl, hb⟩ | ⟨pre, body, rfl, h1, h2⟩
  · rw [wipe_nil]; rfl
  · rw [List.foldl_cons, cutStep_escape, cut_within _ _ hb, wipe_cons, if_neg (by decide)]
  · rw [List.cons_append, List.foldl_cons, cutStep_escape, List.foldl_append, cut_within _ _ h1, List.foldl_cons,
      cut_opens, cut_heading _ _ h2, wipe_cons, if_neg (by decide), wipe_append, wipe_cons, if_neg (by decide)]

/-- Every byte string is a list of parts and perhaps a sequence that does not end. -/
theorem scraps (p : Bytes) : ∃ (ps : List Scrap) (t : Bytes), p = ps.flatMap Scrap.bytes ++ t ∧ (∀ q ∈ ps, q.Sound) ∧ Unended t := by
  have close : ∀ {ps : List Scrap} {q : Scrap} {r : Bytes}, (∀ q ∈ ps, q.Sound) → q.Sound →
      r = ps.flatMap Scrap.bytes ++ q.bytes →
      ∃ (ps : List Scrap) (t : Bytes), r = ps.flatMap Scrap.bytes ++ t ∧ (∀ q ∈ ps, q.Sound) ∧ Unended t := by
    intro ps q r h1 h2 h3
    refine ⟨ps ++ [q], [], by rw [h3]; simp, ?_, .inl rfl⟩
    intro q' hq
    rcases List.mem_append.mp hq with hq | hq
    · exact h1 _ hq
    · rw [List.mem_singleton] at hq; subst hq; exact h2
  generalize hn : p.length = n
  induction n generalizing p with
  | zero => rw [List.length_eq_zero_iff.mp hn]; exact ⟨[], [], rfl, by simp, .inl rfl⟩
  | succ n ih =>
    rcases List.eq_nil_or_concat p with rfl | ⟨p, x, rfl⟩
    · simp at hn
    rw [List.concat_eq_append] at *
    obtain ⟨ps, t, rfl, h1, h2⟩ := ih p (by simpa using hn)
    rcases h2 with rfl | ⟨body, rfl, hb⟩ | ⟨pre, body, rfl, hb, hc⟩
    · by_cases h3 : x = 0x0D
      · exact close (q := .lineEnd false) h1 trivial (by subst h3; simp [Scrap.bytes])
      by_cases h4 : x = 0x0A
      · exact close (q := .lineEnd true) h1 trivial (by subst h4; simp [Scrap.bytes])
      by_cases h5 : x = 0x1B
      · exact ⟨ps, [0x1B], by subst h5; simp, h1, .inr (.inl ⟨[], rfl, by simp [NoEnd]⟩)⟩
      by_cases h6 : x = 0x08
      · exact close (q := .back) h1 trivial (by subst h6; simp [Scrap.bytes])
      exact close (q := .byte x) h1 ⟨h3, h4, h5, h6⟩ (by simp [Scrap.bytes])
    · by_cases h3 : letter x
      · exact close (q := .seq body x) h1 ⟨hb, h3⟩ (by simp [Scrap.bytes])
      by_cases h4 : x = 0x5D
      · exact ⟨ps, 0x1B :: body ++ 0x5D :: [], by subst h4; simp, h1, .inr (.inr ⟨body, [], rfl, hb, by simp⟩)⟩
      refine ⟨ps, 0x1B :: (body ++ [x]), by simp, h1, .inr (.inl ⟨_, rfl, ?_⟩)⟩
      intro y hy
      rcases List.mem_append.mp hy with hy | hy
      · exact hb _ hy
      · rw [List.mem_singleton] at hy; subst hy; exact ⟨h3, h4⟩
    · by_cases h3 : x = 0x07
      · exact close (q := .title pre body) h1 ⟨hb, hc⟩ (by subst h3; simp [Scrap.bytes])
      refine ⟨ps, 0x1B :: pre ++ 0x5D :: (body ++ [x]), by simp, h1, .inr (.inr ⟨pre, _, rfl, hb, ?_⟩)⟩
      intro y hy
      rcases List.mem_append.mp hy with hy | hy
      · exact hc _ hy
      · rw [List.mem_singleton] at hy; subst hy; exact h3

theorem turns_exists (p : Scrap) (l : Bytes) : ∃ l', p.Turns l l' := by
  cases p with
  | back => obtain ⟨m, h, -⟩ := cutStep_back l; exact ⟨m, h⟩
  | _ => exact ⟨_, rfl⟩

theorem turnsAll_exists (ps : List Scrap) (l : Bytes) : ∃ l', TurnsAll ps l l' := by
  induction ps generalizing l with
  | nil => exact ⟨l, rfl⟩
  | cons p ps ih =>
    obtain ⟨m, h1⟩ := turns_exists p l
    obtain ⟨l', h2⟩ := ih m
    exact ⟨l', m, h1, h2⟩

/-- **C25**, the text, for every prompt. -/
theorem C25_every (p : Bytes) : ∃ (ps : List Scrap) (t l : Bytes), p = ps.flatMap Scrap.bytes ++ t ∧ (∀ q ∈ ps, q.Sound) ∧ Unended t ∧
    TurnsAll ps [] l ∧ cutEscapeSequenceAndOldLine p = wipe t l := by
  obtain ⟨ps, t, rfl, h1, h2⟩ := scraps p
  obtain ⟨l, h3⟩ := turnsAll_exists ps []
  exact ⟨ps, t, l, rfl, h1, h2, h3, C25_bytes h1 h2 h3⟩

/-- **C25**, the column, for every prompt. -/
theorem C25_every_column {E : Env} {w : World} {s : St} {prompt : Nat → Bytes} {ps : List Scrap} {t l : Bytes}
    (hp : E.prompt = some prompt) (he : E.promptErr = none) (hps : prompt w.promptN = ps.flatMap Scrap.bytes ++ t)
    (hs : ∀ p ∈ ps, p.Sound) (ht : Unended t) (hl : TurnsAll ps [] l) (h : startSt E w = .ok s) :
    s.topColumn =
      let n := columnAfter E.cfg (stringToMoji E.cfg (wipe t l)) 0
      if n ≥ w.termWidth - 3 then 0 else n :=
  startSt_column hp he (hps ▸ C25_bytes hs ht hl) h

namespace Example

/-- A byte that is no UTF-8, a colour, two characters and a backspace. -/
def rough : List Scrap := [.byte 0xFF, .seq (b "[31") 0x6D, .byte 0x61, .byte 0x62, .back, .byte 0x24]

example : TurnsAll rough [] [0xFF, 0x61, 0x24] := by
  refine ⟨_, rfl, _, rfl, _, rfl, _, rfl, [0xFF, 0x61], .inl ⟨'b', by decide, by decide +kernel⟩, _, rfl, rfl⟩

example : rough.flatMap Scrap.bytes = [0xFF] ++ b "\x1b[31mab\x08$" := by decide +kernel

example : ∀ p ∈ rough, p.Sound := by
  unfold rough
  simp only [List.mem_cons, forall_eq_or_imp]
  have byte : ∀ x : UInt8, (x ≠ 0x0D ∧ x ≠ 0x0A ∧ x ≠ 0x1B ∧ x ≠ 0x08) → (Scrap.byte x).Sound := fun _ h => h
  refine ⟨byte _ (by decide), ⟨?_, ?_⟩, byte _ (by decide), byte _ (by decide), trivial, byte _ (by decide), by simp⟩
  · unfold NoEnd letter; decide +kernel
  · unfold letter; decide

end Example

/-- A title that ends with `ESC \` instead of BEL swallows the prompt: editing starts in column 0. -/
theorem C25_refuted_st : cutEscapeSequenceAndOldLine (b "\x1b]0;title\x1b\\abc$ ") = [] ∧
    cutEscapeSequenceAndOldLine (b "\x1b]0;title\x07abc$ ") = b "abc$ " := by decide +kernel

end Readline
