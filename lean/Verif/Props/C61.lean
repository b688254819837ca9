import Verif.Spec.Inert
import Verif.Proof.Printed
import Verif.Props.C28
import Verif.Props.C60
/-!
# C61: the texts edited cannot control the terminal

`C61_unnamed`: on a terminal that readline does not know, everything it writes for the texts (the
line, the prediction, the search), whatever these contain, is harmless.  `C61_texts_partial`,
`C61_apart_partial`: on every terminal, if the texts contain no control characters, or nothing that
joins.  `C61_terminal`: harmless bytes change nothing but the row of the cursor from its column on,
and leave no sequence unfinished.
`C61_refuted`: where joining is enabled, a control character behind U+200D is written as it is, so
a text can clear the screen.  (The parts of joined units are written by `WriteTo` in
internal/moji/moji.go, or are `_RawCodePoint`s.)
The candidates of a completion are listed by a third-party package and not covered (`Given`).
-/
namespace Readline
open Spec

variable {C : Cfg} {adv : Rune → Int}

/-! ## Units -/

theorem textual_nil : Textual [] := ⟨ValidUtf8.nil, over_nil⟩

theorem Spec.Textual.append {a b : Bytes} (ha : Textual a) (hb : Textual b) : Textual (a ++ b) :=
  ⟨ValidUtf8.append ha.1 hb.1, (over_append ha.1).mpr ⟨ha.2, hb.2⟩⟩

theorem textual_ascii {b : Bytes} (h : ∀ x ∈ b, 0x20 ≤ x.toNat ∧ x.toNat ≤ 0x7E) : Textual b := by
  refine ascii_over fun x hx => ⟨?_, ?_⟩
  · have := (h x hx).2
    show x.toNat < 0x80
    omega
  · have := h x hx
    unfold Control
    omega

theorem textual_rune {r : Rune} (hs : isScalar r = true) (hc : ¬ Control r) : Textual (encodeRune r) := by
  refine ⟨validUtf8_encodeRune _, ?_⟩
  have e : encodeRune r = encodeRunes [r] := by simp [encodeRunes]
  have := runesOf_encodeRunes (rs := [r]) (by simp [hs])
  unfold Over
  rw [e, this]
  simpa using hc

theorem hexUpper_mem (n : Nat) : ∀ x ∈ hexUpper n, 0x20 ≤ x.toNat ∧ x.toNat ≤ 0x7E := by
  have one : ∀ d : Fin 16, 0x20 ≤ (hexDigit d.1).toNat ∧ (hexDigit d.1).toNat ≤ 0x7E := by decide +kernel
  induction n using Nat.strongRecOn with
  | ind n ih =>
    rw [hexUpper.eq_def]
    intro x hx
    split at hx
    · rename_i h
      rw [List.mem_singleton.mp hx]
      exact one ⟨n, h⟩
    · rcases List.mem_append.mp hx with hx | hx
      · exact ih (n / 16) (by omega) x hx
      · rw [List.mem_singleton.mp hx]
        exact one ⟨n % 16, by omega⟩

theorem textual_esc (r : Rune) : Textual ([0x3C] ++ hexUpper r ++ [0x3E]) := by
  refine textual_ascii fun x hx => ?_
  rcases List.mem_append.mp hx with hx | hx
  · rcases List.mem_append.mp hx with hx | hx
    · rw [List.mem_singleton.mp hx]; decide
    · exact hexUpper_mem r x hx
  · rw [List.mem_singleton.mp hx]; decide

theorem textual_spaces (n : Nat) : Textual (List.replicate n 0x20) :=
  textual_ascii fun x hx => by rw [(List.mem_replicate.mp hx).2]; decide

theorem padded_harmless {b : Bytes} (n : Int) (h : Textual b) : Harmless (saveCursorAfterN n ++ b ++ restoreCursor) :=
  .padded n.toNat h

theorem caret_harmless {r : Rune} (h : r < 0x20) : Harmless [0x5E, 0x41 + (UInt8.ofNat r - 1)] := by
  refine .text (textual_ascii ?_)
  have : ∀ d : Fin 32, ∀ x ∈ [0x5E, 0x41 + (UInt8.ofNat d.1 - 1)], 0x20 ≤ x.toNat ∧ x.toNat ≤ 0x7E := by decide +kernel
  exact this ⟨r, h⟩

/-- A unit of one code point: control characters are written as `^` and a letter or as `<` `>` around
their number. -/
theorem base_harmless {r : Rune} (hs : isScalar r = true) (hw : Control r → 0x20 ≤ r → C.width r = 0) {m : Moji}
    (hm : m.norm = (rune2moji C r 0).norm) : Harmless (m.print C) := by
  by_cases h9 : r = 9
  · subst h9
    have : m.norm = .tab 0 := hm
    obtain ⟨q, rfl⟩ := norm_tab this
    exact .text (textual_spaces _)
  · have hsingle : (rune2moji C r 0).single = true := by
      unfold rune2moji
      rw [if_neg h9]
      repeat' split
      all_goals rfl
    have hn : (rune2moji C r 0).norm = rune2moji C r 0 := by
      cases hx : rune2moji C r 0 <;> rw [hx] at hsingle <;> first | rfl | cases hsingle
    have e : m = rune2moji C r 0 := by
      rw [hn] at hm
      rw [← hm, single_norm]
      rw [hm]; exact hsingle
    rw [e]
    by_cases hc : Control r
    · by_cases h0 : r < 0x20
      · have : rune2moji C r 0 = .ctrl r := by unfold rune2moji; rw [if_neg h9, if_pos h0]
        rw [this]
        exact caret_harmless h0
      · have : rune2moji C r 0 = .esc r := by
          unfold rune2moji
          rw [if_neg h9, if_neg h0, if_neg (by unfold Control at hc; omega), if_pos]
          unfold isToBeEscaped
          rw [hw hc (by omega)]
          simp
        rw [this]
        exact .text (textual_esc r)
    · have hr := textual_rune hs hc
      unfold rune2moji
      rw [if_neg h9, if_neg (by unfold Control at hc; omega)]
      repeat' split
      · exact padded_harmless 2 hr
      · exact .text (textual_esc r)
      · exact .text hr
      · exact padded_harmless 2 hr
      · exact padded_harmless 2 hr
      · exact .text hr

theorem norm_raw {m : Moji} {r : Rune} (h : m.norm = .raw r) : m = .raw r := by
  cases m <;> first | exact h | cases h

/-- A unit without control characters, however it is joined. -/
theorem built_harmless {n : Moji} (hn : Built C n) : ∀ m : Moji, m.norm = n → Over (fun r => ¬ Control r) m.write →
    Harmless (m.print C) := by
  have hz : Textual (encodeRune zwjRune) := textual_rune (by decide) (by unfold Control; decide)
  induction hn with
  | @base r hs =>
    intro m hm ho
    refine base_harmless hs (fun hc => ?_) hm
    rw [← Moji.norm_write, hm, Moji.norm_write, rune2moji_write] at ho
    have e : encodeRune r = encodeRunes [r] := by simp [encodeRunes]
    have := runesOf_encodeRunes (rs := [r]) (by simp [hs])
    unfold Over at ho
    rw [e, this] at ho
    exact absurd hc (ho r (by simp))
  | @zwj k n hz' hk hsn ih =>
    intro m hm ho
    cases m <;> try (cases hm; done)
    rename_i a b
    obtain ⟨ha, hb⟩ := Moji.zwj.inj hm
    have hb := norm_raw hb
    subst hb
    have hva : ValidUtf8 a.write := by rw [← Moji.norm_write, ha]; exact hk.valid
    have ho : Over (fun r => ¬ Control r) (a.write ++ encodeRune zwjRune ++ encodeRune n) := ho
    obtain ⟨h1, h2⟩ := (over_append (ValidUtf8.append hva hz.1)).mp ho
    obtain ⟨h3, -⟩ := (over_append hva).mp h1
    have hr : Textual (encodeRune n) := ⟨validUtf8_encodeRune _, h2⟩
    have iha := ih a ha h3
    by_cases hf : ∃ q, a = .flag q
    · obtain ⟨q, rfl⟩ := hf
      have : Textual (encodeRune q ++ encodeRune zwjRune ++ encodeRune n) := (Textual.append ⟨hva, h3⟩ hz).append hr
      have e : (Moji.zwj (.flag q) (.raw n)).print C = saveCursorAfterN ((Moji.zwj (.flag q) (.raw n)).width C) ++
          (encodeRune q ++ encodeRune zwjRune ++ encodeRune n) ++ restoreCursor := by
        simp [Moji.print, Moji.write, List.append_assoc]
      rw [e]
      exact padded_harmless _ this
    · have e : (Moji.zwj a (.raw n)).print C = a.print C ++ encodeRune zwjRune ++ encodeRune n := by
        cases a <;> first | rfl | exact absurd ⟨_, rfl⟩ hf
      rw [e]
      exact (Harmless.append iha (.text hz)).append (.text hr)
  | @vari k r hk hs h1 h2 ih =>
    intro m hm ho
    cases m <;> try (cases hm; done)
    rename_i a b
    obtain ⟨ha, hb⟩ := Moji.vari.inj hm
    have hb := norm_raw hb
    subst hb
    have hva : ValidUtf8 a.write := by rw [← Moji.norm_write, ha]; exact hk.valid
    have e : (Moji.vari a (.raw r)).print C = saveCursorAfterN ((Moji.vari a (.raw r)).width C) ++
        (a.write ++ encodeRune r) ++ restoreCursor := by
      simp [Moji.print, Moji.write, List.append_assoc]
    rw [e]
    exact padded_harmless _ ⟨ValidUtf8.append hva (validUtf8_encodeRune _), ho⟩
  | @modi k r hk hs h1 h2 h3 ih =>
    intro m hm ho
    cases m <;> try (cases hm; done)
    rename_i a b
    obtain ⟨ha, hb⟩ := Moji.modi.inj hm
    have hb := norm_raw hb
    subst hb
    have hva : ValidUtf8 a.write := by rw [← Moji.norm_write, ha]; exact hk.valid
    exact .text ⟨ValidUtf8.append hva (validUtf8_encodeRune _), ho⟩

/-- Without joining, a unit of any text. -/
theorem lone_harmless (hj : ∀ r, ¬ Joins C r) (hw : ∀ r, Control r → 0x20 ≤ r → C.width r = 0) {m : Moji}
    (h : Built C m.norm) : Harmless (m.print C) := by
  generalize hn : m.norm = n at h
  cases h with
  | base hr => exact base_harmless hr (hw _) hn
  | zwj hz _ _ => exact absurd (Or.inl ⟨hz, Or.inl rfl⟩) (hj 0x200C)
  | @vari m r _ _ _ hv =>
    unfold isVariationSelectorLike at hv
    rw [Bool.and_eq_true] at hv
    exact absurd (Or.inr (Or.inl hv)) (hj r)
  | @modi m r _ _ _ _ hm =>
    unfold isEmojiModifier at hm
    rw [Bool.and_eq_true, Bool.and_eq_true, decide_eq_true_eq, decide_eq_true_eq] at hm
    exact absurd (Or.inr (Or.inr hm)) (hj r)

/-- A unit of a text in which nothing joins. -/
theorem apart_harmless (hw : ∀ r, Control r → 0x20 ≤ r → C.width r = 0) {m : Moji} (h : Built C m.norm)
    (ho : Over (fun r => ¬ Joins C r) m.write) : Harmless (m.print C) := by
  rw [← Moji.norm_write] at ho
  generalize hn : m.norm = n at h ho
  cases h with
  | base hr => exact base_harmless hr (hw _) hn
  | @zwj k r hz hk hs =>
    have ho : Over (fun r => ¬ Joins C r) ((k.write ++ encodeRune zwjRune) ++ encodeRune r) := ho
    have := ((over_append hk.valid).mp ((over_append (ValidUtf8.append hk.valid (validUtf8_encodeRune _))).mp ho).1).2
    exact absurd (Or.inl ⟨hz, Or.inr rfl⟩) (over_encode (by decide) this)
  | @vari k r hk hs _ hv =>
    have ho : Over (fun r => ¬ Joins C r) (k.write ++ encodeRune r) := ho
    unfold isVariationSelectorLike at hv
    rw [Bool.and_eq_true] at hv
    exact absurd (Or.inr (Or.inl hv)) (over_encode hs ((over_append hk.valid).mp ho).2)
  | @modi k r hk hs _ _ hm =>
    have ho : Over (fun r => ¬ Joins C r) (k.write ++ encodeRune r) := ho
    unfold isEmojiModifier at hm
    rw [Bool.and_eq_true, Bool.and_eq_true, decide_eq_true_eq, decide_eq_true_eq] at hm
    exact absurd (Or.inr (Or.inr hm)) (over_encode hs ((over_append hk.valid).mp ho).2)

/-! ## Sessions -/

variable {E : Env} {w : World}

theorem given_allows {P : Nat → Prop} (hg : ∀ m : Moji, Built E.cfg m.norm → Over P m.write → Harmless (m.print E.cfg)) :
    Allows P E (fun t => Given E t ∨ Harmless (t.bytes E.cfg)) where
  off := Or.inl trivial
  on := Or.inl trivial
  flush := Or.inl trivial
  await := Or.inl trivial
  erase := Or.inl trivial
  sgr _ := Or.inl trivial
  goto _ := Or.inl trivial
  glyph m hb ho := Or.inr (hg m hb ho)
  color1 := Or.inl (Or.inr (Or.inr (Or.inl rfl)))
  color2 := Or.inl (Or.inr (Or.inr (Or.inr (Or.inl rfl))))
  bell := Or.inl (Or.inr (Or.inr (Or.inr (Or.inr (Or.inl rfl)))))
  prompt b hb := Or.inl (Or.inl hb)
  promptErr e he := Or.inl (Or.inr (Or.inl ⟨e, he, rfl⟩))
  lf := Or.inl (Or.inr (Or.inr (Or.inr (Or.inr (Or.inr (Or.inl rfl))))))
  lineFeed f rc hf := Or.inl (Or.inr (Or.inr (Or.inr (Or.inr (Or.inr (Or.inr (Or.inl ⟨f, rc, hf, rfl⟩)))))))
  clear := Or.inl (Or.inr (Or.inr (Or.inr (Or.inr (Or.inr (Or.inr (Or.inr (Or.inl rfl))))))))
  box k K f l hk hf := Or.inl (Or.inr (Or.inr (Or.inr (Or.inr (Or.inr (Or.inr (Or.inr (Or.inr ⟨k, K, f, l, hk, hf, rfl⟩))))))))

/-- **C61**, terminals that readline does not know: whatever the texts are, everything written for them
is harmless. -/
theorem C61_unnamed {rw : Bool → Rune → Int} {vs : Rune → Bool} {e : Environ} (hE : E.cfg = startCfg rw vs e)
    (he : Unnamed e) (hw : ∀ b r, 0x7F ≤ r → r ≤ 0x9F → rw b r = 0) (hb : BuiltinKeys E) :
    (∀ s, Reachable E w s → ∃ ts, s.out = w.out ++ ts ∧ ∀ t ∈ ts, Given E t ∨ Harmless (t.bytes E.cfg)) ∧
    ∀ s r, readLine E w = .ok (s, r) → ∃ ts, s.out = w.out ++ ts ∧ ∀ t ∈ ts, Given E t ∨ Harmless (t.bytes E.cfg) := by
  have hj : ∀ r, ¬ Joins E.cfg r := by rw [hE]; exact unnamed_joins he
  have hz : E.cfg.zwjOk = false := by rw [hE]; exact (unnamed_off he).2.1
  have hany : ∀ t : Bytes, Over (fun _ => True) t := fun _ _ _ => trivial
  have hs : Sources (fun _ => True) E w := ⟨hany _, fun _ _ => hany _, fun _ _ => hany _, fun _ _ _ _ => Or.inr (Or.inr (hany _)),
    fun _ _ _ _ _ => hany _, fun _ _ => hany _, fun _ _ _ _ _ _ _ _ => hany _, fun _ _ _ => trivial,
    fun _ _ => ⟨trivial, trivial⟩, fun h => by rw [hz] at h; cases h⟩
  have hx : Searching (fun _ => True) E w := fun _ _ _ => ⟨fun _ _ => trivial, fun _ _ => Or.inr trivial⟩
  have hQ := given_allows (E := E) (P := fun _ => True) fun m hm _ => lone_harmless hj (fun r hc h0 => by
    rw [hE]
    unfold Control at hc
    exact hw _ r (by omega) (by omega)) hm
  exact ⟨fun s h => (session_written hb hs hx hQ.toPermits h).out, fun s r h => (result_written hb hs hx hQ h).out⟩

/-- **C61**, texts without control characters: everything written for them is harmless, on every
terminal. -/
theorem C61_texts_partial (hs : Sources (fun r => ¬ Control r) E w) (hb : BuiltinKeys E) :
    (∀ s, Reachable E w s → ∃ ts, s.out = w.out ++ ts ∧ ∀ t ∈ ts, Given E t ∨ Harmless (t.bytes E.cfg)) ∧
    ∀ s r, readLine E w = .ok (s, r) → ∃ ts, s.out = w.out ++ ts ∧ ∀ t ∈ ts, Given E t ∨ Harmless (t.bytes E.cfg) := by
  have hx : Searching (fun r => ¬ Control r) E w := by
    refine fun _ _ _ => ⟨fun r hr => ?_, fun k _ => ?_⟩
    · revert r; unfold Control; decide
    · cases h : isControlRune (decodeRune k).1 with
      | true => exact Or.inl rfl
      | false =>
        refine Or.inr fun hc => ?_
        unfold isControlRune at h
        unfold Control at hc
        simp only [Bool.or_eq_false_iff, Bool.and_eq_false_iff, decide_eq_false_iff_not] at h
        omega
  have hQ := given_allows (E := E) (P := fun r => ¬ Control r) fun m hm ho => built_harmless hm m rfl ho
  exact ⟨fun s h => (session_written hb hs hx hQ.toPermits h).out, fun s r h => (result_written hb hs hx hQ h).out⟩

/-- **C61**, texts in which nothing joins: whatever else they contain, everything written for them is
harmless, on every terminal. -/
theorem C61_apart_partial (hw : ∀ r, Control r → 0x20 ≤ r → E.cfg.width r = 0) (hm : HighMarks E.cfg.varSel)
    (hs : Sources (fun r => ¬ Joins E.cfg r) E w) (hk : ∀ k, .key k ∈ w.input → ¬ Joins E.cfg (decodeRune k).1)
    (hb : BuiltinKeys E) :
    (∀ s, Reachable E w s → ∃ ts, s.out = w.out ++ ts ∧ ∀ t ∈ ts, Given E t ∨ Harmless (t.bytes E.cfg)) ∧
    ∀ s r, readLine E w = .ok (s, r) → ∃ ts, s.out = w.out ++ ts ∧ ∀ t ∈ ts, Given E t ∨ Harmless (t.bytes E.cfg) := by
  have hx : Searching (fun r => ¬ Joins E.cfg r) E w := by
    refine fun _ _ _ => ⟨fun r hr => ?_, fun k h => Or.inr (hk k h)⟩
    have h1 : r < 0x80 := by revert r; decide
    rintro (h | h | h)
    · omega
    · have := hm r h.2; omega
    · omega
  have hQ := given_allows (E := E) (P := fun r => ¬ Joins E.cfg r) fun m hm ho => apart_harmless hw hm ho
  exact ⟨fun s h => (session_written hb hs hx hQ.toPermits h).out, fun s r h => (result_written hb hs hx hQ h).out⟩

/-- The control characters from U+007F on are not printable, in the width function readline starts with. -/
theorem c1_width {T : WidthTables} {b : Bool} {r : Rune} (h1 : 0x7F ≤ r) (h2 : r ≤ 0x9F) : orgRuneWidth T b r = 0 := by
  refine (orgRuneWidth_range b r).2.2.2 ?_
  unfold WidthTables.isPrint
  rw [if_pos (by omega), decide_eq_false (show ¬ r ≤ 0x7E by omega), decide_eq_false (show ¬ 0xA1 ≤ r by omega)]
  simp

/-! ## What harmless bytes do to a terminal -/

/-- Some characters have been written: nothing is pending, and the cursor is as visible as it was. -/
structure Took (v v' : Vt) : Prop where
  mode : v'.mode = .ground
  cursor : v'.cursor = v.cursor
  width : v'.width = v.width

/-- Nothing but the columns from the cursor on has changed, and the cursor has moved on by `k` columns at most. -/
structure Onward (k : Int) (v v' : Vt) : Prop where
  row : v'.row = v.row
  col : v.col ≤ v'.col ∧ v'.col ≤ v.col + k
  cells : ∀ y x, y ≠ v.row ∨ x < v.col → v'.cells y x = v.cells y x

theorem Onward.trans {k l : Int} {v v1 v2 : Vt} (h1 : Onward k v v1) (h2 : Onward l v1 v2) : Onward (k + l) v v2 := by
  refine ⟨h2.row.trans h1.row, ⟨?_, ?_⟩, fun y x h => ?_⟩
  · have := h1.col.1; have := h2.col.1; omega
  · have := h1.col.2; have := h2.col.2; omega
  · rw [h2.cells y x, h1.cells y x h]
    rw [h1.row]
    have := h1.col.1
    omega

theorem Took.trans {v v1 v2 : Vt} (h1 : Took v v1) (h2 : Took v1 v2) : Took v v2 :=
  ⟨h2.mode, h2.cursor.trans h1.cursor, h2.width.trans h1.width⟩

theorem receive_text {v : Vt} (hm : v.mode = .ground) {r : Rune} (hc : ¬ Control r) :
    v.receive adv r = v.print (adv r) r := by
  unfold Control at hc
  unfold Vt.receive
  rw [hm]
  dsimp only
  rw [if_neg (by omega), if_neg (by omega), if_neg (by omega), if_neg (by omega), if_neg (by omega)]

theorem print_took (v : Vt) (hm : v.mode = .ground) (n : Int) (r : Rune) :
    Took v (v.print n r) ∧ (v.print n r).saved = v.saved := by
  unfold Vt.print Vt.newline Vt.put
  split
  · exact ⟨⟨hm, rfl, rfl⟩, rfl⟩
  · split
    · exact ⟨⟨hm, rfl, rfl⟩, rfl⟩
    · exact ⟨⟨hm, rfl, rfl⟩, rfl⟩

theorem print_onward {v : Vt} {n : Int} (r : Rune) (h0 : 0 ≤ n) (hf : v.col + n ≤ v.width) {k : Int} (hk : n ≤ k) :
    Onward k v (v.print n r) := by
  unfold Vt.print
  rw [if_pos hf]
  refine ⟨rfl, ?_, fun y x h => ?_⟩
  · show v.col ≤ v.col + n ∧ v.col + n ≤ v.col + k
    omega
  · show (if y = v.row ∧ v.col ≤ x ∧ x < v.col + n then some (r, x - v.col) else v.cells y x) = _
    rw [if_neg (by omega)]

/-- The columns of characters. -/
def Spec.Narrow (adv : Rune → Int) : Prop := adv 0x20 = 1 ∧ ∀ r, ¬ Control r → 0 ≤ adv r ∧ adv r ≤ 2

theorem text_fed (ha : Spec.Narrow adv) (rs : List Rune) : ∀ v : Vt, v.mode = .ground → (∀ r ∈ rs, ¬ Control r) →
    Took v (v.feed adv rs) ∧ (v.feed adv rs).saved = v.saved ∧
    (v.col + 2 * rs.length ≤ v.width → Onward (2 * rs.length) v (v.feed adv rs)) := by
  induction rs with
  | nil =>
    intro v hm _
    exact ⟨⟨hm, rfl, rfl⟩, rfl, fun _ => ⟨rfl, by simp [feed_nil], fun _ _ _ => rfl⟩⟩
  | cons r rs ih =>
    intro v hm h
    have hr := h r (by simp)
    rw [feed_cons, receive_text hm hr]
    obtain ⟨h1, h2⟩ := print_took v hm (adv r) r
    obtain ⟨h3, h4, h5⟩ := ih (v.print (adv r) r) h1.mode fun x hx => h x (by simp [hx])
    refine ⟨h1.trans h3, h4.trans h2, fun hf => ?_⟩
    obtain ⟨a0, a2⟩ := ha.2 r hr
    have hf : v.col + 2 * ((rs.length : Int) + 1) ≤ v.width := by simpa using hf
    have ho : Onward 2 v (v.print (adv r) r) := print_onward r a0 (by omega) a2
    have := ho.trans (h5 (by have := ho.col.2; rw [h1.width]; omega))
    rw [show (2 * ((r :: rs).length : Int)) = 2 + 2 * (rs.length : Int) by simp; omega]
    exact this

/-- Blanks move the cursor on by one column each. -/
theorem blanks_fed (ha : adv 0x20 = 1) (n : Nat) : ∀ v : Vt, v.mode = .ground → v.col + n ≤ v.width →
    (v.feed adv (List.replicate n 0x20)).col = v.col + n := by
  induction n with
  | zero => intro v _ _; simp [feed_nil]
  | succ n ih =>
    intro v hm hf
    rw [List.replicate_succ, feed_cons, receive_text hm (by unfold Control; decide)]
    obtain ⟨h1, -⟩ := print_took v hm (adv 0x20) 0x20
    have hc : (v.print (adv 0x20) 0x20).col = v.col + 1 := by
      unfold Vt.print
      rw [if_pos (by rw [ha]; omega)]
      show v.col + adv 0x20 = _
      rw [ha]
    rw [ih _ h1.mode (by rw [hc, h1.width]; omega), hc]
    omega

/-- Backspaces. -/
theorem backs_fed (n : Nat) : ∀ v : Vt, v.mode = .ground → Took v (v.feed adv (List.replicate n 0x08)) ∧
    (v.feed adv (List.replicate n 0x08)).saved = v.saved ∧ (v.feed adv (List.replicate n 0x08)).row = v.row ∧
    (v.feed adv (List.replicate n 0x08)).cells = v.cells ∧
    (n ≤ v.col → (v.feed adv (List.replicate n 0x08)).col = v.col - n) := by
  induction n with
  | zero => intro v hm; exact ⟨⟨hm, rfl, rfl⟩, rfl, rfl, rfl, fun _ => by simp [feed_nil]⟩
  | succ n ih =>
    intro v hm
    rw [List.replicate_succ, feed_cons]
    have e : v.receive adv 0x08 = { v with col := max 0 (v.col - 1) } := by
      unfold Vt.receive
      rw [hm]
      rfl
    rw [e]
    obtain ⟨h1, h2, h3, h4, h5⟩ := ih { v with col := max 0 (v.col - 1) } hm
    refine ⟨⟨h1.mode, h1.cursor, h1.width⟩, h2, h3, h4, fun h => ?_⟩
    have : max 0 (v.col - 1) = v.col - 1 := by omega
    rw [h5 (by show (n : Int) ≤ max 0 (v.col - 1); omega)]
    show max 0 (v.col - 1) - (n : Int) = _
    omega

/-- **C61**: what harmless bytes do to a terminal.  It is ready for more afterwards and its cursor is
shown as before; if there is room for two columns per character, nothing changes but the row of the
cursor from its column on. -/
theorem C61_terminal (ha : Spec.Narrow adv) {bs : Bytes} (h : Harmless bs) (v : Vt) (hm : v.mode = .ground) :
    (v.run adv bs).mode = .ground ∧ (v.run adv bs).cursor = v.cursor ∧
    (0 ≤ v.col → v.col + 2 * (runesOf bs).length ≤ v.width →
      (v.run adv bs).row = v.row ∧ v.col ≤ (v.run adv bs).col ∧ (v.run adv bs).col ≤ v.col + 2 * (runesOf bs).length ∧
      ∀ y x, y ≠ v.row ∨ x < v.col → (v.run adv bs).cells y x = v.cells y x) := by
  have key : ∃ rs, Reads bs rs ∧ ∀ v : Vt, v.mode = .ground → Took v (v.feed adv rs) ∧
      (0 ≤ v.col → v.col + 2 * rs.length ≤ v.width → Onward (2 * rs.length) v (v.feed adv rs)) := by
    clear hm v
    induction h with
    | @text b hb =>
      refine ⟨runesOf b, Reads.valid hb.1, fun v hm => ?_⟩
      obtain ⟨h1, -, h3⟩ := text_fed ha (runesOf b) v hm hb.2
      exact ⟨h1, fun _ => h3⟩
    | @append a b _ _ iha ihb =>
      obtain ⟨x, hx, ha⟩ := iha
      obtain ⟨y, hy, hb⟩ := ihb
      refine ⟨x ++ y, hx.append hy, fun v hm => ?_⟩
      rw [feed_append]
      obtain ⟨h1, h2⟩ := ha v hm
      obtain ⟨h3, h4⟩ := hb _ h1.mode
      refine ⟨h1.trans h3, fun h0 hf => ?_⟩
      have hf : v.col + 2 * ((x.length : Int) + y.length) ≤ v.width := by simpa using hf
      have o1 := h2 h0 (by omega)
      have := o1.trans (h4 (by have := o1.col.1; omega) (by have := o1.col.2; rw [h1.width]; omega))
      rw [show (2 * ((x ++ y).length : Int)) = 2 * (x.length : Int) + 2 * (y.length : Int) by simp; omega]
      exact this
    | @padded b n hb =>
      refine ⟨List.replicate n 0x20 ++ [0x1B, 0x37] ++ List.replicate n 0x08 ++ runesOf b ++ [0x1B, 0x38], ?_, fun v hm => ?_⟩
      · have r1 : ∀ (n : Nat) (c : UInt8), c.toNat < 0x80 → Reads (List.replicate n c) (List.replicate n c.toNat) := by
          intro n c hc
          have := Reads.ascii (bs := List.replicate n c) (fun x hx => by rw [(List.mem_replicate.mp hx).2]; exact hc)
          rwa [List.map_replicate] at this
        have r2 : Reads [0x1B, 0x37] [0x1B, 0x37] := Reads.ascii (by decide)
        have r3 : Reads [0x1B, 0x38] [0x1B, 0x38] := Reads.ascii (by decide)
        exact ((((r1 n 0x20 (by decide)).append r2).append (r1 n 0x08 (by decide))).append (Reads.valid hb.1)).append r3
      · simp only [feed_append, List.append_assoc]
        obtain ⟨h1, -, h1o⟩ := text_fed ha (List.replicate n 0x20) v hm
          (fun r hr => by rw [(List.mem_replicate.mp hr).2]; unfold Control; decide)
        have h1c := blanks_fed ha.1 n v hm
        generalize v.feed adv (List.replicate n 0x20) = v1 at *
        have e2 : v1.feed adv [0x1B, 0x37] = { v1 with saved := (v1.row, v1.col) } := receive_save h1.mode
        rw [e2]
        obtain ⟨h3, h3s, h3r, h3c, h3k⟩ := backs_fed (adv := adv) n { v1 with saved := (v1.row, v1.col) } h1.mode
        generalize ({ v1 with saved := (v1.row, v1.col) } : Vt).feed adv (List.replicate n 0x08) = v3 at *
        obtain ⟨h4, h4s, h4o⟩ := text_fed ha (runesOf b) v3 h3.mode hb.2
        generalize v3.feed adv (runesOf b) = v4 at *
        have e5 : v4.feed adv [0x1B, 0x38] = { v4 with row := v4.saved.1, col := v4.saved.2 } := receive_restore h4.mode
        rw [e5]
        refine ⟨⟨h4.mode, h4.cursor.trans (h3.cursor.trans h1.cursor), h4.width.trans (h3.width.trans h1.width)⟩,
          fun h0 hf => ?_⟩
        simp only [List.length_append, List.length_replicate, List.length_cons, List.length_nil] at hf h1o ⊢
        have hs : v4.saved = (v1.row, v1.col) := h4s.trans h3s
        have c1 := h1c (by omega)
        have o1 := h1o (by omega)
        have c3 : v3.col = v.col := by
          rw [h3k (by show (n : Int) ≤ v1.col; omega)]
          show v1.col - (n : Int) = _
          omega
        have o4 := h4o (by rw [c3, h3.width]; show _ ≤ v1.width; rw [h1.width]; omega)
        refine ⟨?_, ?_, fun y x hx => ?_⟩
        · show v4.saved.1 = v.row; rw [hs]; exact o1.row
        · show v.col ≤ v4.saved.2 ∧ v4.saved.2 ≤ _
          rw [hs]
          dsimp only
          omega
        · show v4.cells y x = _
          rw [o4.cells y x (by rw [h3r, c3]; exact o1.row ▸ hx), h3c]
          exact o1.cells y x hx
  obtain ⟨rs, hr, hv⟩ := key
  have e : runesOf bs = rs := by have := hr []; simpa [runesOf_nil] using this
  obtain ⟨h1, h2⟩ := hv v hm
  have e2 : v.run adv bs = v.feed adv rs := by unfold Vt.run Vt.feed; rw [e]
  rw [e2, e]
  exact ⟨h1.mode, h1.cursor, fun h0 hf => ⟨(h2 h0 hf).row, (h2 h0 hf).col.1, (h2 h0 hf).col.2, (h2 h0 hf).cells⟩⟩

/-! ## Joined units are written as they are -/

namespace Example

/-- A letter, U+200D, and the sequence that clears the screen: ESC, `[`, `2`, `J`. -/
def clears : Bytes := utf8 ['a', '‍', '\x1b', '[', '2', 'J']

/-- The session that starts from that text. -/
def given (e : Environ) : Env := { env (started e) with default := clears }

/-- A screen with an `x` in its first row; the cursor is below. -/
def used : Vt := { width := 80, height := 25, row := 3, col := 0, cells := fun y x => if y = 0 ∧ x = 0 then some (0x78, 0) else none }

/-- The terminal at the first wait for a key. -/
def atFirst (e : Environ) : Option Sight :=
  match after (given e) { input := keys ["\r"] } 0 with
  | .ok s => some ((used.run (fun _ => 1) (bytesOf (started e) s.out)).cells 0 0)
  | .error _ => none

end Example

open Example in
/-- **C61 does not hold where joining is enabled**: in Windows Terminal, a text with a control character
behind U+200D is sent to the terminal as it is; here it clears the screen.  In an unnamed terminal the
screen keeps what it shows. -/
theorem C61_refuted :
    (∃ s, Reachable (given inWindows) { input := keys ["\r"] } s ∧ ∃ t ∈ s.out, ¬ Given (given inWindows) t ∧
      0x1B ∈ runesOf (t.bytes (started inWindows)) ∧ ¬ Harmless (t.bytes (started inWindows))) ∧
    used.cells 0 0 = some (0x78, 0) ∧ atFirst inWindows = some none ∧ atFirst inCode = some (some (0x78, 0)) := by
  have h : (match startSt (given inWindows) { input := keys ["\r"] } with
      | .ok s => s.out.any fun t => match t with
        | .glyph m => decide (m.print (started inWindows) = utf8 ['a', '‍', '\x1b'])
        | _ => false
      | .error _ => false) = true := by decide +kernel
  refine ⟨?_, by decide +kernel, by decide +kernel, by decide +kernel⟩
  split at h
  case h_2 => cases h
  case h_1 s hs =>
    obtain ⟨t, ht, h⟩ := List.any_eq_true.mp h
    refine ⟨s, .start hs, t, ht, ?_⟩
    split at h
    case h_2 => cases h
    case h_1 m =>
      have e : Tok.bytes (started inWindows) (.glyph m) = utf8 ['a', '‍', '\x1b'] := of_decide_eq_true h
      rw [e]
      refine ⟨fun h => h, by decide +kernel, fun h => ?_⟩
      have := (C61_terminal (adv := fun _ => 1) ⟨rfl, fun _ _ => ⟨(by decide : (0 : Int) ≤ 1), (by decide : (1 : Int) ≤ 2)⟩⟩ h used rfl).1
      exact absurd this (by decide +kernel)

/-! ## Examples -/

namespace Example

/-- `C61_unnamed`: any keys, texts and clipboard in Visual Studio Code's terminal, with the default keys. -/
theorem anything_inCode (d : Bytes) (h : List Bytes) (w : World) :
    ∀ s, Reachable { env (started inCode) with default := d, history := h } w s →
      ∃ ts, s.out = w.out ++ ts ∧
        ∀ t ∈ ts, Given { env (started inCode) with default := d, history := h } t ∨ Harmless (t.bytes (started inCode)) :=
  (C61_unnamed (E := { env (started inCode) with default := d, history := h }) (w := w)
    (rw := orgRuneWidth tables) (vs := fun r => 0xFE00 ≤ r ∧ r ≤ 0xFE0F) (e := inCode) rfl inCode_unnamed
    (fun _ _ h1 h2 => c1_width h1 h2) (defaultKeys_builtin (started inCode))).1

/-- The session of the next example: a farmer (man, joiner, sheaf of rice) is typed, a word is yanked. -/
def farming : World := { clip := some (b "corn"), input := keys ["👨", "‍", "🌾", "\x19", "\r"] }

theorem farming_sources : Sources (fun r => ¬ Control r) (env (started inWindows)) farming := by
  have key : ∀ k, FromKey (env (started inWindows)) farming k → k ∈ [b "👨", b "‍", b "🌾"] := by
    intro k hk
    rcases hk with ⟨q, hq, hc⟩ | ⟨⟨q, hq, hc⟩, -⟩
    · have hx : (match lookupCommand (env (started inWindows)) q with
          | .selfInsert x => decide (x ∈ [b "👨", b "‍", b "🌾"])
          | _ => true) = true := by
        simp only [farming, keys, List.map_cons, List.map_nil, List.mem_cons, Ev.key.injEq, List.not_mem_nil, or_false] at hq
        rcases hq with rfl | rfl | rfl | rfl | rfl <;> decide +kernel
      rw [hc] at hx
      exact of_decide_eq_true hx
    · have hx : (match lookupCommand (env (started inWindows)) q with | .quotedInsert => true | _ => false) = true := by rw [hc]
      simp only [farming, keys, List.map_cons, List.map_nil, List.mem_cons, Ev.key.injEq, List.not_mem_nil, or_false] at hq
      rcases hq with rfl | rfl | rfl | rfl | rfl <;> exact absurd hx (by decide +kernel)
  refine ⟨over_nil, fun _ h => (nomatch h), fun t h => ?_, fun _ _ _ h => Or.inl ?_, fun _ h => (nomatch h), fun k hk => ?_,
    fun q K _ hc => absurd hc (env_completion rfl rfl), fun _ _ _ => by unfold Control; decide,
    fun _ _ => ⟨by unfold Control; decide, by unfold Control; decide⟩, fun _ k hk hj => ?_⟩
  · injection h with h
    subst h
    unfold Over Control
    decide +kernel
  · injection h with h
    exact h.symm
  · have hm := key k hk
    simp only [List.mem_cons, List.not_mem_nil, or_false] at hm
    unfold Over Control
    rcases hm with rfl | rfl | rfl <;> decide +kernel
  · have hm := key k hk
    simp only [List.mem_cons, List.not_mem_nil, or_false] at hm
    rcases hm with rfl | rfl | rfl
    · exact absurd hj (by decide +kernel)
    · exact ⟨['‍'], by decide +kernel⟩
    · exact absurd hj (by decide +kernel)

/-- `C61_texts_partial`: joined units in Windows Terminal. -/
example : ∀ s, Reachable (env (started inWindows)) farming s → ∃ ts, s.out = ts ∧
    ∀ t ∈ ts, Given (env (started inWindows)) t ∨ Harmless (t.bytes (started inWindows)) :=
  (C61_texts_partial farming_sources (defaultKeys_builtin _)).1

example : outcome (readLine (env (started inWindows)) farming) = .inr (b "👨‍🌾corn", .nil) := by decide +kernel

/-- `C61_apart_partial`: a text with ESC, Ctrl-G and a tab in Windows Terminal. -/
example (e : Environ) (d : Bytes) (hd : Over (fun r => ¬ Joins (started e) r) d) :
    ∀ s, Reachable { env (started e) with default := d } { input := keys ["x", "\r"] } s → ∃ ts, s.out = ts ∧
      ∀ t ∈ ts, Given { env (started e) with default := d } t ∨ Harmless (t.bytes (started e)) := by
  have hm : HighMarks (started e).varSel := by
    intro r h
    have : 0xFE00 ≤ r ∧ r ≤ 0xFE0F := of_decide_eq_true h
    omega
  have asc : ∀ r, r < 0x80 → ¬ Joins (started e) r := by
    rintro r h (h1 | h1 | h1)
    · omega
    · have := hm r h1.2; omega
    · omega
  have hin : ∀ k, .key k ∈ keys ["x", "\r"] → k = [0x78] ∨ k = [0x0D] := by
    intro k h
    simp only [keys, List.map_cons, List.map_nil, List.mem_cons, Ev.key.injEq, List.not_mem_nil, or_false] at h
    rcases h with rfl | rfl <;> decide +kernel
  refine (C61_apart_partial (E := { env (started e) with default := d }) (w := { input := keys ["x", "\r"] })
    (fun r hc h0 => c1_width (by unfold Control at hc; omega) (by unfold Control at hc; omega)) hm ?_ ?_
    (defaultKeys_builtin (started e))).1
  · refine ⟨hd, fun _ h => (nomatch h), fun t h => (nomatch h), fun _ _ _ h => Or.inl ?_, fun _ h => (nomatch h), fun k hk => ?_,
      fun q K _ hc => absurd hc (env_completion rfl rfl), fun _ _ _ => asc _ (by decide),
      fun hz h => ?_, fun _ k hk hj => ?_⟩
    · injection h with h
      exact h.symm
    · intro r hr
      rcases hin k (env_typed rfl rfl hk) with rfl | rfl
      · exact asc r (by revert r; decide +kernel)
      · exact asc r (by revert r; decide +kernel)
    · rcases h with h | h
      · exact absurd (Or.inl ⟨hz, Or.inl rfl⟩) h
      · exact absurd (Or.inl ⟨hz, Or.inr rfl⟩) h
    · rcases hin k (env_typed rfl rfl hk) with rfl | rfl <;> exact absurd hj (by decide +kernel)
  · intro k hk
    rcases hin k hk with rfl | rfl <;> exact asc _ (by decide +kernel)

/-- `C61_terminal`: a terminal that agrees with readline about the columns. -/
example : Spec.Narrow (plainColumns (started inWindows)) := by
  refine ⟨by decide +kernel, fun r _ => ?_⟩
  unfold plainColumns
  split
  · exact ⟨by decide, by decide⟩
  · exact ⟨(orgRuneWidth_range (T := tables) _ r).1, (orgRuneWidth_range (T := tables) _ r).2.1⟩

example : Harmless (utf8 ['é', '日']) := .text ⟨⟨['é', '日'], rfl⟩, by unfold Over Control; decide +kernel⟩

end Example

end Readline
