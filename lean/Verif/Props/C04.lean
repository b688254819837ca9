import Verif.Props.C01
import Verif.Props.C05
/-!
# C04: typing text and pressing Enter returns that text

`C04_partial`: a session in which the user types keys that insert themselves, with terminal
resizes at any time, and then Enter, returns exactly the concatenation of the keys, or the
terminal is too narrow or a tab stands beyond column 32767 (see C01).

The keys have to fit together (`Spec.Fits`): on a terminal that joins with U+200D, each key is
a text that is cut into units without loss (C05), and a U+200D typed alone follows a character
and is followed by a key that does not itself start with a joiner.  Without these features
every sequence of keys fits (`C04_plain_partial`).  A two-byte key ESC c stands for Alt-c and
is inserted as c, so it is excluded.

`C04_refuted_pending`, `C04_refuted_double`, `C04_refuted_selector`, `C04_alt` show what
happens otherwise.
-/
namespace Readline
open Spec

/-- The text is cut into units without loss (C05). -/
def Spec.Whole (C : Cfg) (cs : List Char) : Prop :=
  C.zwjOk = false ∨ ('‌' ∉ cs ∧ cs.getLast? ≠ some '‍')

/-- What stands before the cursor: nothing, a character, or a character with a U+200D. -/
inductive Spec.Before where
  | nothing | char | joiner

/-- The terminal attaches the text to a character before it by a join control. -/
def Spec.StartsJoin (C : Cfg) (cs : List Char) : Prop :=
  C.zwjOk = true ∧ (cs.head? = some '‌' ∨ cs.head? = some '‍')

/-- The terminal attaches the first character of the text to a character before it. -/
def Spec.StartsJoins (C : Cfg) (cs : List Char) : Prop := ∃ c, cs.head? = some c ∧ Joins C c.toNat

/-- Keys that can be typed one after the other. -/
def Spec.Fits (C : Cfg) : Before → List (List Char) → Prop
  | .joiner, [] => False
  | _, [] => True
  | .nothing, k :: ks => Whole C k ∧ Fits C (if k = [] then .nothing else .char) ks
  | .char, k :: ks =>
    (C.zwjOk = true ∧ k = ['‍'] ∧ Fits C .joiner ks) ∨
    (Whole C k ∧ ¬ StartsJoin C k ∧ Fits C .char ks)
  | .joiner, k :: ks => k ≠ [] ∧ Whole C k ∧ ¬ StartsJoins C k ∧ Fits C .char ks

/-- The events are the keys, each inserting itself, with resizes between them. -/
inductive Spec.Types (E : Env) : List Ev → List (List Char) → Prop where
  | nil : Types E [] []
  | resize {evs ks n} : Types E evs ks → Types E (.resize n :: evs) ks
  | key {evs ks k} : lookupCommand E (utf8 k) = .selfInsert (utf8 k) →
      (∀ c : Char, c.toNat < 128 → k ≠ ['\x1b', c]) → Types E evs ks →
      Types E (.key (utf8 k) :: evs) (k :: ks)

/-! ## Texts that are cut without loss -/

theorem runesOf_utf8 (cs : List Char) : runesOf (utf8 cs) = cs.map Char.toNat := by
  rw [utf8_eq_encodeRunes]
  exact runesOf_encodeRunes (by simp only [List.mem_map]; rintro r ⟨c, _, rfl⟩; exact char_isScalar c)

theorem segs_text (C : Cfg) (t : Bytes) :
    lineText (segs C t) = encodeRunes (rejoin C.zwjOk .fresh (runesOf t)) := by
  rw [← stringToMoji_text]
  simp [lineText, segs, mojisText, List.flatMap_map]

theorem whole_rejoin {C : Cfg} {cs : List Char} (h : Whole C cs) :
    rejoin C.zwjOk .fresh (cs.map Char.toNat) = cs.map Char.toNat :=
  (C05_iff C cs).mp (C05_partial C cs h)

theorem whole_text {C : Cfg} {cs : List Char} (h : Whole C cs) :
    lineText (segs C (utf8 cs)) = utf8 cs := by
  rw [segs_text, runesOf_utf8, whole_rejoin h, utf8_eq_encodeRunes]

theorem runesOf_encodeRunes_append {rs : List Rune} (h : ∀ r ∈ rs, isScalar r = true) (t : Bytes) :
    runesOf (encodeRunes rs ++ t) = rs ++ runesOf t := by
  induction rs with
  | nil => simp [encodeRunes]
  | cons r rs ih =>
    rw [encodeRunes_cons, List.append_assoc, runesOf_encode_append (h r (by simp)),
      ih (fun x hx => h x (by simp [hx]))]
    rfl

theorem Built.runes {C : Cfg} {m : Moji} (h : Built C m) :
    ∃ R : List Rune, (∀ r ∈ R, isScalar r = true) ∧ m.write = encodeRunes R ∧
      ∀ S, rejoin C.zwjOk .fresh (R ++ S) = R ++ rejoin C.zwjOk .started S := by
  induction h with
  | @base r h =>
    refine ⟨[r], by simpa using h, ?_, fun S => by simp [rejoin]⟩
    rw [Moji.norm_write, rune2moji_write]
    simp [encodeRunes]
  | @zwj m n hz _ hn ih =>
    obtain ⟨R, h1, h2, h3⟩ := ih
    refine ⟨R ++ [0x200D, n], ?_, ?_, ?_⟩
    · intro r hr
      simp only [List.mem_append, List.mem_cons, List.not_mem_nil, or_false] at hr
      rcases hr with hr | rfl | rfl
      · exact h1 r hr
      · decide
      · exact hn
    · simp only [Moji.write, encodeRunes_append, h2]
      simp [encodeRunes, List.append_assoc, zwjRune]
    · intro S
      rw [List.append_assoc, h3]
      simp [rejoin, hz]
  | @vari m r _ hr hz _ ih =>
    obtain ⟨R, h1, h2, h3⟩ := ih
    refine ⟨R ++ [r], ?_, ?_, ?_⟩
    · intro x hx
      simp only [List.mem_append, List.mem_cons, List.not_mem_nil, or_false] at hx
      rcases hx with hx | rfl
      · exact h1 x hx
      · exact hr
    · simp only [Moji.write, encodeRunes_append, h2]
      simp [encodeRunes]
    · intro S
      rw [List.append_assoc, h3]
      have : ¬ (C.zwjOk = true ∧ (r = 0x200C ∨ r = 0x200D)) := by
        rw [← isZeroWidthJoin_iff]; simp [hz]
      simp only [List.cons_append, List.nil_append, rejoin]
      rw [if_neg this]
      simp
  | @modi m r _ hr hz _ _ ih =>
    obtain ⟨R, h1, h2, h3⟩ := ih
    refine ⟨R ++ [r], ?_, ?_, ?_⟩
    · intro x hx
      simp only [List.mem_append, List.mem_cons, List.not_mem_nil, or_false] at hx
      rcases hx with hx | rfl
      · exact h1 x hx
      · exact hr
    · simp only [Moji.write, encodeRunes_append, h2]
      simp [encodeRunes]
    · intro S
      rw [List.append_assoc, h3]
      have : ¬ (C.zwjOk = true ∧ (r = 0x200C ∨ r = 0x200D)) := by
        rw [← isZeroWidthJoin_iff]; simp [hz]
      simp only [List.cons_append, List.nil_append, rejoin]
      rw [if_neg this]
      simp

/-- A unit followed by a text that does not start with a join control. -/
theorem attach_text {C : Cfg} {m : Moji} (hm : Built C m) {cs : List Char} (h : Whole C cs)
    (hj : ¬ StartsJoin C cs) :
    lineText (segs C (m.write ++ utf8 cs)) = m.write ++ utf8 cs := by
  obtain ⟨R, h1, h2, h3⟩ := hm.runes
  rw [segs_text, h2, runesOf_encodeRunes_append h1, runesOf_utf8, h3, encodeRunes_append]
  congr 1
  have hw := whole_rejoin h
  cases cs with
  | nil => simp [rejoin, utf8, encodeRunes]
  | cons c cs =>
    rw [utf8_eq_encodeRunes]
    congr 1
    simp only [List.map_cons, rejoin] at hw ⊢
    have : ¬ (C.zwjOk = true ∧ (c.toNat = 0x200C ∨ c.toNat = 0x200D)) := by
      rintro ⟨hz, hc | hc⟩
      · exact hj ⟨hz, Or.inl (by rw [show c = '‌' from Char.toNat_inj.mp hc]; rfl)⟩
      · exact hj ⟨hz, Or.inr (by rw [show c = '‍' from Char.toNat_inj.mp hc]; rfl)⟩
    rw [if_neg this]
    exact hw

/-- A unit, a U+200D and a text. -/
theorem join_text {C : Cfg} {m : Moji} (hm : Built C m) (hz : C.zwjOk = true) {cs : List Char}
    (h : Whole C cs) (hne : cs ≠ []) :
    lineText (segs C (m.write ++ utf8 ['‍'] ++ utf8 cs)) = m.write ++ utf8 ['‍'] ++ utf8 cs := by
  obtain ⟨R, h1, h2, h3⟩ := hm.runes
  have e1 : utf8 ['‍'] ++ utf8 cs = utf8 ('‍' :: cs) := by simp [utf8]
  rw [List.append_assoc, e1, segs_text, h2, runesOf_encodeRunes_append h1, runesOf_utf8, h3,
    encodeRunes_append]
  congr 1
  rw [utf8_eq_encodeRunes]
  congr 1
  have hw := whole_rejoin h
  cases cs with
  | nil => exact absurd rfl hne
  | cons c cs =>
    simp only [List.map_cons, rejoin] at hw ⊢
    rw [if_pos ⟨hz, Or.inr rfl⟩]
    rw [hw]
    rfl

theorem decodeRune_utf8 (c : Char) (cs : List Char) :
    (decodeRune (utf8 (c :: cs))).1 = c.toNat := by
  rw [utf8_eq_encodeRunes, List.map_cons, encodeRunes_cons, decode_encode (char_isScalar c)]

theorem areZwj_utf8 {C : Cfg} {cs : List Char} :
    areZeroWidthJoin C (utf8 cs) = true ↔ StartsJoin C cs := by
  unfold areZeroWidthJoin
  cases cs with
  | nil =>
    have : (decodeRune (utf8 [])).1 = 0xFFFD := by decide
    rw [this]
    simp [isZeroWidthJoin, StartsJoin]
  | cons c cs =>
    rw [decodeRune_utf8, Bool.and_eq_true, isZeroWidthJoin_iff]
    unfold StartsJoin
    simp only [List.head?_cons, Option.some.injEq]
    constructor
    · rintro ⟨h1, -, h | h⟩
      · exact ⟨h1, Or.inl (Char.toNat_inj.mp h)⟩
      · exact ⟨h1, Or.inr (Char.toNat_inj.mp h)⟩
    · rintro ⟨h1, rfl | rfl⟩
      · exact ⟨h1, h1, Or.inl rfl⟩
      · exact ⟨h1, h1, Or.inr rfl⟩

theorem attaches_utf8 {C : Cfg} {cs : List Char} (hne : cs ≠ [])
    (h : ¬ StartsJoins C cs) :
    (areVariationSelectorLike C (utf8 cs) || areEmojiModifier C (utf8 cs)) = false ∧
      areZeroWidthJoin C (utf8 cs) = false := by
  cases cs with
  | nil => exact absurd rfl hne
  | cons c cs =>
    have hn : isJoiner C c.toNat = false := by
      rw [Bool.eq_false_iff]
      intro hx
      exact h ⟨c, rfl, isJoiner_iff.mp hx⟩
    unfold isJoiner at hn
    simp only [Bool.or_eq_false_iff] at hn
    unfold areVariationSelectorLike areEmojiModifier areZeroWidthJoin
    rw [decodeRune_utf8]
    simp [hn]

theorem stripAlt_utf8 {cs : List Char} (h : ∀ c : Char, c.toNat < 128 → cs ≠ ['\x1b', c]) :
    stripAlt (utf8 cs) = utf8 cs := by
  unfold stripAlt
  split
  · rename_i x hx
    exfalso
    have hl := congrArg List.length hx
    have h1 : ∀ c : Char, (String.utf8EncodeChar c).length ≠ 0 := by
      intro c
      rw [← encodeRune_char]
      have := encodeRune_length_pos c.toNat
      omega
    cases cs with
    | nil => simp [utf8] at hx
    | cons c cs =>
      have hc : c = '\x1b' := by
        have hd := decodeRune_utf8 c cs
        rw [hx] at hd
        have e : (decodeRune [0x1B, x]).1 = 0x1B := by
          have := decode_encode (r := 0x1B) (by decide) [x]
          rw [show encodeRune 0x1B = [0x1B] by decide] at this
          rw [show ([0x1B, x] : Bytes) = [0x1B] ++ [x] from rfl, this]
        rw [e] at hd
        exact Char.toNat_inj.mp hd.symm
      subst hc
      have e2 : utf8 cs = [x] := by
        have : utf8 ('\x1b' :: cs) = 0x1B :: utf8 cs := by
          simp only [utf8, List.flatMap_cons]
          rw [show String.utf8EncodeChar '\x1b' = [0x1B] by decide]
          rfl
        rw [this] at hx
        simpa using hx
      cases cs with
      | nil => simp [utf8] at e2
      | cons d ds =>
        have h2 := h1 d
        have e3 : (String.utf8EncodeChar d).length + (utf8 ds).length = 1 := by
          have := congrArg List.length e2
          simpa [utf8] using this
        have hds : ds = [] := by
          cases ds with
          | nil => rfl
          | cons f fs =>
            have h3 := h1 f
            have : (utf8 (f :: fs)).length = (String.utf8EncodeChar f).length + (utf8 fs).length := by
              simp [utf8]
            omega
        subst hds
        apply h d _ rfl
        have hlen : (encodeRune d.toNat).length = 1 := by
          rw [encodeRune_char]
          have : (utf8 ([] : List Char)).length = 0 := rfl
          omega
        unfold encodeRune at hlen
        split at hlen
        · assumption
        all_goals (repeat' split at hlen) <;> simp at hlen
  · rfl

/-! ## Typing -/

/-- What holds after `done` has been typed. -/
structure Typing (C : Cfg) (b : Before) (done : List Char) (e : Ed) : Prop where
  built : ∀ m ∈ e.line, Built C m
  cursor : e.cursor = e.line.length
  text : lineText e.line ++ e.pending = utf8 done
  mode : match b with
    | .nothing => e.line = [] ∧ e.pending = []
    | .char => e.line ≠ [] ∧ e.pending = []
    | .joiner => C.zwjOk = true ∧ ∃ m, Built C m ∧ e.pending = m.write ++ utf8 ['‍']

theorem utf8_append (a b : List Char) : utf8 (a ++ b) = utf8 a ++ utf8 b := by simp [utf8]

theorem typeTail_line {L : Logic} {e : Ed} (hc : e.cursor = e.line.length) (t : Bytes) :
    (Ed.typeTail L e t).line = e.line ++ segs L.cfg t ∧
    (Ed.typeTail L e t).cursor = (Ed.typeTail L e t).line.length ∧
    (Ed.typeTail L e t).pending = e.pending := by
  have hl : (Ed.typeTail L e t).line = e.line ++ segs L.cfg t := by
    simp [Ed.typeTail, Ed.insert, hc]
  refine ⟨hl, ?_, by simp [Ed.typeTail, Ed.insert]⟩
  rw [hl]
  simp [Ed.typeTail, hc]

theorem backspace_line {L : Logic} {e : Ed} (hc : e.cursor = e.line.length) (hne : e.line ≠ []) :
    (Ed.backspace L e).line = e.line.dropLast ∧
    (Ed.backspace L e).cursor = (Ed.backspace L e).line.length ∧
    (Ed.backspace L e).pending = e.pending := by
  have hp : 0 < e.line.length := List.length_pos_iff.mpr hne
  have e1 : Ed.backspace L e = Ed.predict L (Ed.delete { e with cursor := e.cursor - 1 }
      (e.cursor - 1) 1) := by
    unfold Ed.backspace; rw [if_pos (by omega)]
  have e2 : Ed.delete { e with cursor := e.cursor - 1 } (e.cursor - 1) 1 =
      { e with cursor := e.cursor - 1
               line := e.line.take (e.cursor - 1).toNat ++ e.line.drop ((e.cursor - 1).toNat + 1)
               undoes := { pos := e.cursor - 1, del := 0
                           text := lineText ((e.line.drop (e.cursor - 1).toNat).take 1) } :: e.undoes } := by
    unfold Ed.delete
    rw [if_neg]
    · rfl
    · simp only [Ed.len]; omega
  have hl : (Ed.backspace L e).line = e.line.dropLast := by
    rw [e1, Ed.predict_line, e2]
    show e.line.take (e.cursor - 1).toNat ++ e.line.drop ((e.cursor - 1).toNat + 1) = _
    rw [List.drop_eq_nil_of_le (by omega), List.append_nil, List.dropLast_eq_take]
    congr 1; omega
  refine ⟨hl, ?_, ?_⟩
  · rw [hl, e1, Ed.predict_cursor, e2, List.length_dropLast]
    show e.cursor - 1 = _
    omega
  · rw [e1, Ed.predict_pending, e2]

theorem left_eq {e : Ed} (hc : e.cursor = e.line.length) (hne : e.line ≠ []) :
    (e.line[(e.cursor - 1).toNat]?).elim [] Moji.write = (e.line.getLast hne).write := by
  have : (e.cursor - 1).toNat = e.line.length - 1 := by omega
  rw [this, ← List.getLast?_eq_getElem?, List.getLast?_eq_some_getLast hne]
  rfl

theorem lineText_dropLast (l : List Moji) (h : l ≠ []) :
    lineText l.dropLast ++ (l.getLast h).write = lineText l := by
  conv => rhs; rw [← List.dropLast_concat_getLast h]
  simp [lineText]

theorem type_typing {L : Logic} {b : Before} {done k : List Char} {ks : List (List Char)} {e : Ed}
    (h : Typing L.cfg b done e) (hf : Fits L.cfg b (k :: ks))
    (ha : ∀ c : Char, c.toNat < 128 → k ≠ ['\x1b', c]) :
    ∃ b', Typing L.cfg b' (done ++ k) (Ed.type L e (utf8 k)) ∧ Fits L.cfg b' ks := by
  have hs := stripAlt_utf8 ha
  have hbt : ∀ t : Bytes, ∀ e' : Ed, (∀ m ∈ e'.line, Built L.cfg m) →
      ∀ m ∈ e'.line ++ segs L.cfg t, Built L.cfg m := by
    intro t e' he' m hm
    rcases List.mem_append.mp hm with hm | hm
    · exact he' m hm
    · exact segs_built _ _ m hm
  cases b with
  | nothing =>
    obtain ⟨hw, hf⟩ := hf
    obtain ⟨hl, hp⟩ := h.mode
    have hc0 : ¬ e.cursor > 0 := by rw [h.cursor, hl]; simp
    have et : Ed.type L e (utf8 k) = Ed.typeTail L e (utf8 k) := by
      unfold Ed.type
      dsimp only
      rw [hs]
      simp [hc0, hp]
    obtain ⟨t1, t2, t3⟩ := typeTail_line (L := L) h.cursor (utf8 k)
    refine ⟨_, ⟨?_, by rw [et]; exact t2, ?_, ?_⟩, hf⟩
    · rw [et, t1]; exact hbt _ _ h.built
    · rw [et, t1, t3, hp, List.append_nil, lineText_append, whole_text hw, utf8_append, ← h.text, hp,
        List.append_nil]
    · rw [et]
      by_cases hk : k = []
      · rw [if_pos hk]
        refine ⟨?_, by rw [t3]; exact hp⟩
        rw [t1, hl, hk]; exact segs_nil _
      · rw [if_neg hk]
        refine ⟨?_, by rw [t3]; exact hp⟩
        rw [t1, hl]
        intro hx
        have := whole_text hw
        simp only [List.nil_append] at hx
        rw [hx] at this
        cases k with
        | nil => exact hk rfl
        | cons c cs =>
          have h2 := congrArg List.length this
          have h3 := encodeRune_length_pos c.toNat
          rw [encodeRune_char] at h3
          simp only [lineText, List.flatMap_nil, List.length_nil, utf8, List.flatMap_cons,
            List.length_append] at h2
          omega
  | char =>
    obtain ⟨hl, hp⟩ := h.mode
    have hlen : 0 < e.line.length := List.length_pos_iff.mpr hl
    have hc0 : e.cursor > 0 := by rw [h.cursor]; omega
    rcases hf with ⟨hz, rfl, hf⟩ | ⟨hw, hj, hf⟩
    · have hj : areZeroWidthJoin L.cfg (utf8 ['‍']) = true := areZwj_utf8.mpr ⟨hz, Or.inr rfl⟩
      have et : Ed.type L e (utf8 ['‍']) =
          Ed.backspace L { e with pending := (e.line.getLast hl).write ++ utf8 ['‍'] } := by
        unfold Ed.type
        dsimp only
        rw [hs, left_eq h.cursor hl]
        simp [hj, hc0]
      obtain ⟨t1, t2, t3⟩ := backspace_line (L := L)
        (e := { e with pending := (e.line.getLast hl).write ++ utf8 ['‍'] }) h.cursor hl
      refine ⟨.joiner, ⟨?_, by rw [et]; exact t2, ?_, ?_⟩, hf⟩
      · rw [et, t1]
        exact fun m hm => h.built m (List.dropLast_subset _ hm)
      · rw [et, t1, t3]
        show lineText e.line.dropLast ++ ((e.line.getLast hl).write ++ utf8 ['‍']) = _
        rw [← List.append_assoc, lineText_dropLast, utf8_append, ← h.text, hp, List.append_nil]
      · refine ⟨hz, e.line.getLast hl, h.built _ (List.getLast_mem hl), ?_⟩
        rw [et, t3]
    · have hnz : areZeroWidthJoin L.cfg (utf8 k) = false := by
        rw [Bool.eq_false_iff]; intro hx; exact hj (areZwj_utf8.mp hx)
      cases hv : (areVariationSelectorLike L.cfg (utf8 k) || areEmojiModifier L.cfg (utf8 k)) with
      | true =>
        have et : Ed.type L e (utf8 k) =
            Ed.typeTail L (Ed.backspace L e) ((e.line.getLast hl).write ++ utf8 k) := by
          unfold Ed.type
          dsimp only
          rw [hs, left_eq h.cursor hl]
          simp [hnz, hv, hc0]
        obtain ⟨t1, t2, t3⟩ := backspace_line (L := L) h.cursor hl
        obtain ⟨u1, u2, u3⟩ := typeTail_line (L := L) (e := Ed.backspace L e) t2
          ((e.line.getLast hl).write ++ utf8 k)
        have hat := attach_text (h.built _ (List.getLast_mem hl)) hw hj
        have hbb : ∀ m ∈ (Ed.backspace L e).line, Built L.cfg m := by
          rw [t1]; exact fun m hm => h.built m (List.dropLast_subset _ hm)
        refine ⟨.char, ⟨?_, by rw [et]; exact u2, ?_, ?_, ?_⟩, hf⟩
        · rw [et, u1]; exact hbt _ _ hbb
        · rw [et, u1, u3, t3, hp, List.append_nil, lineText_append, hat, t1, ← List.append_assoc,
            lineText_dropLast, utf8_append, ← h.text, hp, List.append_nil]
        · rw [et, u1]
          intro hx
          have hx := (List.append_eq_nil_iff.mp hx).2
          rw [hx] at hat
          have hne := (h.built _ (List.getLast_mem hl)).write_ne_nil
          have := (List.append_eq_nil_iff.mp hat.symm).1
          exact hne this
        · rw [et, u3, t3]; exact hp
      | false =>
        have et : Ed.type L e (utf8 k) = Ed.typeTail L e (utf8 k) := by
          unfold Ed.type
          dsimp only
          rw [hs]
          simp [hnz, hv, hp]
        obtain ⟨t1, t2, t3⟩ := typeTail_line (L := L) h.cursor (utf8 k)
        refine ⟨.char, ⟨?_, by rw [et]; exact t2, ?_, ?_, ?_⟩, hf⟩
        · rw [et, t1]; exact hbt _ _ h.built
        · rw [et, t1, t3, hp, List.append_nil, lineText_append, whole_text hw, utf8_append, ← h.text,
            hp, List.append_nil]
        · rw [et, t1]
          intro hx
          exact hl (List.append_eq_nil_iff.mp hx).1
        · rw [et, t3]; exact hp
  | joiner =>
    obtain ⟨hne, hw, hj, hf⟩ := hf
    obtain ⟨hz, m, hm, hp⟩ := h.mode
    obtain ⟨a1, a2⟩ := attaches_utf8 hne hj
    have hpl : e.pending.length > 0 := by
      rw [hp]
      have := List.length_pos_iff.mpr hm.write_ne_nil
      rw [List.length_append]; omega
    have et : Ed.type L e (utf8 k) =
        Ed.typeTail L { e with pending := [] } (e.pending ++ utf8 k) := by
      unfold Ed.type
      dsimp only
      rw [hs]
      simp only [a1, a2, Bool.false_and, Bool.false_eq_true, if_false]
      rw [if_pos hpl]
    have hjt := join_text hm hz hw hne
    rw [← hp] at hjt
    obtain ⟨t1, t2, t3⟩ := typeTail_line (L := L) (e := { e with pending := [] }) h.cursor
      (e.pending ++ utf8 k)
    refine ⟨.char, ⟨?_, by rw [et]; exact t2, ?_, ?_, ?_⟩, hf⟩
    · rw [et, t1]; exact hbt _ _ h.built
    · rw [et, t1, t3]
      show lineText (e.line ++ segs L.cfg (e.pending ++ utf8 k)) ++ [] = _
      rw [List.append_nil, lineText_append, hjt, ← List.append_assoc, h.text, utf8_append]
    · rw [et, t1]
      intro hx
      have hx := (List.append_eq_nil_iff.mp hx).2
      rw [hx] at hjt
      have := (List.append_eq_nil_iff.mp hjt.symm).1
      rw [this] at hpl
      simp at hpl
    · rw [et, t3]

/-! ## The session -/

theorem Wp.and {Q : Panic → Prop} {x : M α} {P P' : α → Prop} (h : Wp Q x P)
    (h' : ∀ a, x = .ok a → P' a) : Wp Q x (fun a => P a ∧ P' a) := by
  cases x with
  | ok a => exact ⟨h, h' a rfl⟩
  | error e => exact h

theorem Typing.predict {L : Logic} {b : Before} {done : List Char} {e : Ed}
    (h : Typing L.cfg b done e) : Typing L.cfg b done (Ed.predict L e) :=
  ⟨by simpa using h.built, by simpa using h.cursor, by simpa using h.text,
   by cases b <;> simpa using h.mode⟩

theorem loop_typing {E : Env} {evs : List Ev} {ks : List (List Char)} (ht : Types E evs ks)
    {enter : Bytes} (hen : lookupCommand E enter = .acceptLine) (rest : List Ev)
    {b : Before} {done : List Char} {s : St} {n : Nat}
    (hin : s.inside) (hh : s.histOk E) (hty : Typing E.cfg b done s.ed) (hf : Fits E.cfg b ks)
    (hi : s.input = evs ++ .key enter :: rest) (hn : evs.length < n) :
    Wp (Panic.known E) (loop E n s) (fun p => p.2 = ⟨utf8 (done ++ ks.flatten), .nil⟩ ∧
      p.1.input = rest ∧ 0 ≤ p.1.cursor) := by
  induction ht generalizing b done s n with
  | nil =>
    cases n with
    | zero => omega
    | succ n =>
      have hi : s.input = .key enter :: rest := hi
      rw [loop]
      have hw : Wp (Panic.known E) (step E s) (fun p => p.1.inside) := by
        rw [step_key hi, hen]
        exact execCmd_wp_known rfl (by intro P e; cases e) hin hh (by simp)
      refine Wp.bind (Wp.mono hw ?_)
      rintro ⟨s1, o⟩ hok -
      obtain ⟨this, hed⟩ := (step_key_ed hi hen rfl hok).2 (by simp [Ed.call])
      dsimp only at this ⊢
      rw [this]
      refine Wp.pure ⟨?_, congrArg Ed.input hed, ?_⟩
      rotate_left
      · show 0 ≤ s1.cursor
        rw [show s1.cursor = s.cursor from congrArg Ed.cursor hed]
        have : s.cursor = s.line.length := hty.cursor
        rw [this]
        exact Int.natCast_nonneg _
      have hp : s.ed.pending = [] := by
        cases b with
        | nothing => exact hty.mode.2
        | char => exact hty.mode.2
        | joiner => exact hf.elim
      have ht := hty.text
      rw [hp, List.append_nil] at ht
      show (⟨lineText s.ed.line, .nil⟩ : RLRes) = _
      rw [ht]; simp
  | @resize evs ks m ht ih =>
    cases n with
    | zero => omega
    | succ n =>
      have hi : s.input = .resize m :: (evs ++ .key enter :: rest) := hi
      rw [loop]
      have hw : Wp (Panic.known E) (step E s) (fun p => p.1.inside) := by
        unfold step
        rw [hi]
        refine Wp.bind (Wp.mono (onResize_wp ?_) ?_)
        · exact hin
        · intro s1 _ h1; exact Wp.pure h1
      refine Wp.bind (Wp.mono hw ?_)
      rintro ⟨s1, o⟩ hok h1
      obtain ⟨ho, he⟩ := step_resize_ed hi hok
      dsimp only at ho he h1 ⊢
      subst ho
      dsimp only
      have hty1 : Typing E.cfg b done s1.ed := by
        rw [he]
        exact Typing.predict (L := E.logic) ⟨hty.built, hty.cursor, hty.text, hty.mode⟩
      refine ih h1 ?_ hty1 hf ?_ (by simp at hn; omega)
      · have : s1.histPtr = s.histPtr := by
          have := congrArg Ed.histPtr he; simp at this; exact this
        unfold St.histOk; rw [this]; exact hh
      · have := congrArg Ed.input he
        simp at this
        exact this
  | @key evs ks k hk ha ht ih =>
    cases n with
    | zero => omega
    | succ n =>
      have hi : s.input = .key (utf8 k) :: (evs ++ .key enter :: rest) := hi
      rw [loop]
      have hw : Wp (Panic.known E) (step E s) (fun p => p.1.inside) := by
        rw [step_key hi, hk]
        exact execCmd_wp_known rfl (by intro P e; cases e) hin hh (by simp)
      refine Wp.bind (Wp.mono hw ?_)
      rintro ⟨s1, o⟩ hok h1
      obtain ⟨ho, he'⟩ := (step_key_ed hi hk rfl hok).1 (by simp [Ed.call])
      have he : s1.ed = Ed.type E.logic { s.ed with input := evs ++ .key enter :: rest } (utf8 k) := by
        rcases he' with he | ⟨hx, -⟩
        · exact he
        · cases hx
      clear he'
      dsimp only at ho h1 ⊢
      subst ho
      dsimp only
      obtain ⟨b', hty1, hf1⟩ := type_typing (L := E.logic)
        (e := { s.ed with input := evs ++ .key enter :: rest })
        ⟨hty.built, hty.cursor, hty.text, hty.mode⟩ hf ha
      rw [← he] at hty1
      have hfr := Ed.type_frame E.logic { s.ed with input := evs ++ .key enter :: rest } (utf8 k)
      rw [← he] at hfr
      have := ih h1 (by
        unfold St.histOk
        have : s1.histPtr = s.histPtr := hfr.histPtr
        rw [this]; exact hh) hty1 hf1 hfr.input (by simp at hn; omega)
      simpa using this

/-- Typing text and pressing Enter returns that text, and what comes after Enter is not read.  (Missing from the full claim: keys that
do not fit, where it is false; a terminal that is too narrow; tabs beyond column 32767.) -/
theorem C04_partial {E : Env} {w : World} {evs rest : List Ev} {ks : List (List Char)}
    {enter : Bytes} (hd : E.default = []) (hc : 0 ≤ w.cursor) (hi : w.input = evs ++ .key enter :: rest)
    (ht : Types E evs ks) (hf : Fits E.cfg .nothing ks) (hen : lookupCommand E enter = .acceptLine) :
    (∃ s, readLine E w = .ok (s, ⟨utf8 ks.flatten, .nil⟩) ∧ s.input = rest ∧ 0 ≤ s.cursor) ∨
    (∃ p, readLine E w = .error p ∧
      ((p.kind = .bounds ∧ p.st.narrow E.cfg) ∨ (p.kind = .tabPos ∧ TabBad E p.st))) := by
  have key : Wp (Panic.known E) (readLine E w) (fun p => p.2 = ⟨utf8 ks.flatten, .nil⟩ ∧
      p.1.input = rest ∧ 0 ≤ p.1.cursor) := by
    unfold readLine
    refine Wp.bind (Wp.mono (startSt_wp hc) ?_)
    intro s hok hin
    have he := (startSt_ed hok).1
    have hinp := startSt_input hok
    have := loop_typing ht hen rest (s := s) (b := .nothing) (done := []) (n := s.input.length + 1) hin
      ?_ ?_ hf (by rw [hinp, hi]) (by rw [hinp, hi]; simp; omega)
    · simpa using this
    · exact (start_inv hc hok).hist
    · have hd' : E.logic.default = [] := hd
      rw [he]
      unfold Ed.start
      rw [hd', segs_nil]
      apply Typing.predict (L := E.logic)
      refine ⟨by simp, ?_, rfl, rfl, rfl⟩
      show (if w.cursor > (0 : Nat) then ((0 : Nat) : Int) else w.cursor) = 0
      split <;> omega
  cases hr : readLine E w with
  | ok p =>
    left
    have := key.ok hr
    exact ⟨p.1, by rw [← this.1], this.2⟩
  | error p => exact Or.inr ⟨p, rfl, (key.error hr).symm⟩

/-- On a terminal that does not join characters every sequence of keys can be typed. -/
theorem fits_plain {C : Cfg} (hz : C.zwjOk = false) (ks : List (List Char)) :
    Fits C .nothing ks ∧ Fits C .char ks := by
  induction ks with
  | nil => exact ⟨trivial, trivial⟩
  | cons k ks ih =>
    refine ⟨⟨Or.inl hz, ?_⟩, Or.inr ⟨Or.inl hz, ?_, ih.2⟩⟩
    · split
      · exact ih.1
      · exact ih.2
    · rintro ⟨h, -⟩
      rw [hz] at h; cases h

theorem C04_plain_partial {E : Env} {w : World} {evs rest : List Ev} {ks : List (List Char)}
    {enter : Bytes} (hz : E.cfg.zwjOk = false) (hd : E.default = []) (hc : 0 ≤ w.cursor)
    (hi : w.input = evs ++ .key enter :: rest)
    (ht : Types E evs ks) (hen : lookupCommand E enter = .acceptLine) :
    (∃ s, readLine E w = .ok (s, ⟨utf8 ks.flatten, .nil⟩) ∧ s.input = rest ∧ 0 ≤ s.cursor) ∨
    (∃ p, readLine E w = .error p ∧
      ((p.kind = .bounds ∧ p.st.narrow E.cfg) ∨ (p.kind = .tabPos ∧ TabBad E p.st))) :=
  C04_partial hd hc hi ht (fits_plain hz ks).1 hen

section
open Example

/-- A family typed character by character on a terminal that joins them. -/
example : Fits full .nothing [['a'], ['👩'], ['‍'], ['👧'], ['❤'], ['️'], ['\t']] := by
  refine ⟨?_, Or.inr ⟨?_, ?_, Or.inl ⟨rfl, rfl, ?_, ?_, ?_, Or.inr ⟨?_, ?_, Or.inr ⟨?_, ?_, Or.inr ⟨?_, ?_, ?_⟩⟩⟩⟩⟩⟩
  all_goals first
    | exact trivial
    | exact Or.inr (by decide)
    | (rintro ⟨-, h⟩; revert h; decide)
    | (rintro ⟨c, h, hj⟩; simp at h; subst h; revert hj; decide)
    | decide

example : outcome (readLine (env full) { input := keys ["a", "👩", "‍", "👧", "\t", "\x0d"] }) =
    .inr (b "a👩‍👧\t", .nil) := by decide +kernel

/-- U+200D and then Enter: the character is lost. -/
theorem C04_refuted_pending :
    outcome (readLine (env full) { input := keys ["a", "👩", "‍", "\x0d"] }) = .inr (b "a", .nil) := by
  decide +kernel

/-- U+200D typed twice: the characters before it are exchanged or lost. -/
theorem C04_refuted_double :
    outcome (readLine (env full) { input := keys ["a", "👩", "‍", "‍", "b", "\x0d"] }) =
      .inr (b "a‍b", .nil) := by decide +kernel

/-- A variation selector right after U+200D attaches to the character before. -/
theorem C04_refuted_selector :
    outcome (readLine (env full) { input := keys ["a", "👩", "‍", "️", "b", "\x0d"] }) =
      .inr (b "a️👩‍b", .nil) := by decide +kernel

/-- ESC x is inserted as x. -/
theorem C04_alt :
    outcome (readLine (env plain) { input := keys ["\x1bx", "\x0d"] }) = .inr (b "x", .nil) := by
  decide +kernel

end
end Readline
