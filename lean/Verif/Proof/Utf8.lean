import Verif.Spec.Text
/-!
# Lemmas about UTF-8
-/
namespace Readline
open Spec

theorem encodeRune_ne_nil (r : Rune) : encodeRune r ≠ [] := by
  unfold encodeRune
  repeat' split
  all_goals simp

theorem encodeRune_length_pos (r : Rune) : 0 < (encodeRune r).length :=
  List.length_pos_iff.mpr (encodeRune_ne_nil r)

theorem isScalar_iff {r : Rune} : isScalar r = true ↔ r < 0xD800 ∨ (0xDFFF < r ∧ r ≤ 0x10FFFF) := by
  simp [isScalar]

/-- Decoding an encoded scalar value gives it back and consumes exactly its bytes. -/
theorem decode_encode {r : Rune} (h : isScalar r = true) (t : Bytes) :
    decodeRune (encodeRune r ++ t) = (r, (encodeRune r).length) := by
  rw [isScalar_iff] at h
  have hs : isScalar r = true := isScalar_iff.mpr h
  unfold encodeRune
  split
  · rename_i h1
    have : (UInt8.ofNat r).toNat = r := by simp [UInt8.toNat_ofNat']; omega
    simp [decodeRune, this, h1]
  split
  · rename_i h1 h2
    have e1 : (UInt8.ofNat (0xC0 + r / 64)).toNat = 0xC0 + r / 64 := by
      simp [UInt8.toNat_ofNat']; omega
    have e2 : (UInt8.ofNat (0x80 + r % 64)).toNat = 0x80 + r % 64 := by
      simp [UInt8.toNat_ofNat']; omega
    simp only [decodeRune, List.cons_append, List.nil_append, e1, e2, inRange]
    have c1 : ¬ (0xC0 + r / 64 < 0x80) := by omega
    have c2 : ¬ (0xC0 + r / 64 < 0xC2) := by omega
    have c3 : 0xC0 + r / 64 < 0xE0 := by omega
    have c4 : 0x80 + r % 64 ≤ 0xBF := by omega
    simp [c1, c2, c3, c4]
    omega
  · rename_i h1 h2
    simp only [hs, Bool.not_true, Bool.false_eq_true, if_false]
    split
    · rename_i h3
      have e1 : (UInt8.ofNat (0xE0 + r / 4096)).toNat = 0xE0 + r / 4096 := by
        simp [UInt8.toNat_ofNat']; omega
      have e2 : (UInt8.ofNat (0x80 + r / 64 % 64)).toNat = 0x80 + r / 64 % 64 := by
        simp [UInt8.toNat_ofNat']; omega
      have e3 : (UInt8.ofNat (0x80 + r % 64)).toNat = 0x80 + r % 64 := by
        simp [UInt8.toNat_ofNat']; omega
      simp only [decodeRune, List.cons_append, List.nil_append, e1, e2, e3, inRange]
      have c1 : ¬ (0xE0 + r / 4096 < 0x80) := by omega
      have c2 : ¬ (0xE0 + r / 4096 < 0xC2) := by omega
      have c3 : ¬ (0xE0 + r / 4096 < 0xE0) := by omega
      have c4 : 0xE0 + r / 4096 < 0xF0 := by omega
      have c5 : 0x80 + r % 64 ≤ 0xBF := by omega
      have c6 : (if 0xE0 + r / 4096 = 0xE0 then 0xA0 else 0x80) ≤ 0x80 + r / 64 % 64 := by
        split <;> omega
      have c7 : 0x80 + r / 64 % 64 ≤ (if 0xE0 + r / 4096 = 0xED then 0x9F else 0xBF) := by
        split <;> omega
      have c8 : (0x80 : Nat) ≤ 0x80 + r % 64 := by omega
      rw [if_neg c1, if_neg c2, if_neg c3, if_pos c4]
      simp only [c5, c6, c7, c8, decide_true, Bool.and_true, if_true, List.length_cons,
        List.length_nil]
      refine Prod.ext ?_ rfl
      show (0xE0 + r / 4096 - 0xE0) * 4096 + (0x80 + r / 64 % 64 - 0x80) * 64
        + (0x80 + r % 64 - 0x80) = r
      omega
    · rename_i h3
      have e1 : (UInt8.ofNat (0xF0 + r / 262144)).toNat = 0xF0 + r / 262144 := by
        simp [UInt8.toNat_ofNat']; omega
      have e2 : (UInt8.ofNat (0x80 + r / 4096 % 64)).toNat = 0x80 + r / 4096 % 64 := by
        simp [UInt8.toNat_ofNat']; omega
      have e3 : (UInt8.ofNat (0x80 + r / 64 % 64)).toNat = 0x80 + r / 64 % 64 := by
        simp [UInt8.toNat_ofNat']; omega
      have e4 : (UInt8.ofNat (0x80 + r % 64)).toNat = 0x80 + r % 64 := by
        simp [UInt8.toNat_ofNat']; omega
      simp only [decodeRune, List.cons_append, List.nil_append, e1, e2, e3, e4, inRange]
      have c1 : ¬ (0xF0 + r / 262144 < 0x80) := by omega
      have c2 : ¬ (0xF0 + r / 262144 < 0xC2) := by omega
      have c3 : ¬ (0xF0 + r / 262144 < 0xE0) := by omega
      have c3' : ¬ (0xF0 + r / 262144 < 0xF0) := by omega
      have c4 : 0xF0 + r / 262144 < 0xF5 := by omega
      have c5 : 0x80 + r % 64 ≤ 0xBF := by omega
      have c5' : 0x80 + r / 64 % 64 ≤ 0xBF := by omega
      have c6 : (if 0xF0 + r / 262144 = 0xF0 then 0x90 else 0x80) ≤ 0x80 + r / 4096 % 64 := by
        split <;> omega
      have c7 : 0x80 + r / 4096 % 64 ≤ (if 0xF0 + r / 262144 = 0xF4 then 0x8F else 0xBF) := by
        split <;> omega
      have c8 : (0x80 : Nat) ≤ 0x80 + r % 64 := by omega
      have c9 : (0x80 : Nat) ≤ 0x80 + r / 64 % 64 := by omega
      rw [if_neg c1, if_neg c2, if_neg c3, if_neg c3', if_pos c4]
      simp only [c5, c5', c6, c7, c8, c9, decide_true, Bool.and_true, if_true, List.length_cons,
        List.length_nil]
      refine Prod.ext ?_ rfl
      show (0xF0 + r / 262144 - 0xF0) * 262144 + (0x80 + r / 4096 % 64 - 0x80) * 4096
        + (0x80 + r / 64 % 64 - 0x80) * 64 + (0x80 + r % 64 - 0x80) = r
      omega

theorem pick_isScalar {c : Prop} [Decidable c] {x n : Nat}
    (h : c → isScalar x = true) : isScalar (if c then (x, n) else (runeError, 1)).1 = true := by
  by_cases hc : c
  · rw [if_pos hc]; exact h hc
  · rw [if_neg hc]; decide

/-- A decoded rune is always a scalar value. -/
theorem decode_isScalar (s : Bytes) : isScalar (decodeRune s).1 = true := by
  unfold decodeRune
  split
  · decide
  · rename_i b0 t
    have hb0 : b0.toNat < 256 := b0.toNat_lt
    simp only
    by_cases h1 : b0.toNat < 0x80
    · rw [if_pos h1, isScalar_iff]; left; simp only; omega
    rw [if_neg h1]
    by_cases h2 : b0.toNat < 0xC2
    · rw [if_pos h2]; decide
    rw [if_neg h2]
    by_cases h3 : b0.toNat < 0xE0
    · rw [if_pos h3]
      split
      · apply pick_isScalar
        intro hr
        simp [inRange] at hr
        rw [isScalar_iff]; omega
      · decide
    rw [if_neg h3]
    by_cases h4 : b0.toNat < 0xF0
    · rw [if_pos h4]
      split
      · apply pick_isScalar
        intro hr
        simp [inRange] at hr
        rw [isScalar_iff]
        by_cases e1 : b0.toNat = 0xE0
        · simp [e1] at hr; omega
        · by_cases e2 : b0.toNat = 0xED
          · simp [e2] at hr; omega
          · simp [e1, e2] at hr; omega
      · decide
    rw [if_neg h4]
    by_cases h5 : b0.toNat < 0xF5
    · rw [if_pos h5]
      split
      · apply pick_isScalar
        intro hr
        simp [inRange] at hr
        rw [isScalar_iff]
        by_cases e1 : b0.toNat = 0xF0
        · simp [e1] at hr; omega
        · by_cases e2 : b0.toNat = 0xF4
          · simp [e2] at hr; omega
          · simp [e1, e2] at hr; omega
      · decide
    rw [if_neg h5]; decide

theorem runesOf_nil : runesOf [] = [] := by simp [runesOf]

theorem runesOf_cons (b : UInt8) (t : Bytes) :
    runesOf (b :: t) = (decodeRune (b :: t)).1 :: runesOf ((b :: t).drop (decodeRune (b :: t)).2) := by
  rw [runesOf]

theorem runesOf_encode_append {r : Rune} (h : isScalar r = true) (t : Bytes) :
    runesOf (encodeRune r ++ t) = r :: runesOf t := by
  have hne := encodeRune_ne_nil r
  have hd := decode_encode h t
  obtain ⟨b, u, hu⟩ := List.exists_cons_of_ne_nil hne
  rw [hu] at hd ⊢
  rw [List.cons_append] at hd ⊢
  rw [runesOf_cons, hd]
  simp

theorem encodeRunes_nil : encodeRunes [] = [] := rfl

theorem encodeRunes_cons (r : Rune) (rs : List Rune) :
    encodeRunes (r :: rs) = encodeRune r ++ encodeRunes rs := rfl

theorem encodeRunes_append (a b : List Rune) :
    encodeRunes (a ++ b) = encodeRunes a ++ encodeRunes b := by
  simp [encodeRunes]

theorem runesOf_encodeRunes {rs : List Rune} (h : ∀ r ∈ rs, isScalar r = true) :
    runesOf (encodeRunes rs) = rs := by
  induction rs with
  | nil => simp [encodeRunes, runesOf_nil]
  | cons r rs ih =>
    rw [encodeRunes_cons, runesOf_encode_append (h r (by simp)), ih (fun r hr => h r (by simp [hr]))]

theorem runesOf_isScalar (s : Bytes) : ∀ r ∈ runesOf s, isScalar r = true := by
  induction s using runesOf.induct with
  | case1 => simp [runesOf_nil]
  | case2 b t ih =>
    rw [runesOf_cons]
    intro r hr
    rcases List.mem_cons.mp hr with h | h
    · subst h; exact decode_isScalar _
    · exact ih r h

theorem char_isScalar (c : Char) : isScalar c.toNat = true := by
  have hc : c.val.toNat < 0xd800 ∨ (0xdfff < c.val.toNat ∧ c.val.toNat < 0x110000) := c.valid
  rw [isScalar_iff]
  simp only [Char.toNat]
  omega

/-- Lean's UTF-8 encoder agrees with the model's (Go's). -/
theorem encodeRune_char (c : Char) : encodeRune c.toNat = String.utf8EncodeChar c := by
  have hs := char_isScalar c
  have hs' := isScalar_iff.mp hs
  simp only [Char.toNat] at hs hs' ⊢
  generalize hv : c.val.toNat = v at hs hs'
  unfold String.utf8EncodeChar encodeRune
  simp only [hs, hv, Bool.not_true, Bool.false_eq_true, if_false]
  by_cases h1 : v < 0x80
  · rw [if_pos h1, if_pos (show v ≤ 0x7f by omega)]
  rw [if_neg h1, if_neg (show ¬ v ≤ 0x7f by omega)]
  by_cases h2 : v < 0x800
  · rw [if_pos h2, if_pos (show v ≤ 0x7ff by omega)]
    have e1 : 0xC0 + v / 64 = v / 64 % 32 + 0xC0 := by omega
    have e2 : 0x80 + v % 64 = v % 64 + 0x80 := by omega
    rw [e1, e2]
  rw [if_neg h2, if_neg (show ¬ v ≤ 0x7ff by omega)]
  by_cases h3 : v < 0x10000
  · rw [if_pos h3, if_pos (show v ≤ 0xffff by omega)]
    have e1 : 0xE0 + v / 4096 = v / 4096 % 16 + 0xE0 := by omega
    have e2 : 0x80 + v / 64 % 64 = v / 64 % 64 + 0x80 := by omega
    have e3 : 0x80 + v % 64 = v % 64 + 0x80 := by omega
    rw [e1, e2, e3]
  rw [if_neg h3, if_neg (show ¬ v ≤ 0xffff by omega)]
  have e1 : 0xF0 + v / 262144 = v / 262144 % 8 + 0xF0 := by omega
  have e2 : 0x80 + v / 4096 % 64 = v / 4096 % 64 + 0x80 := by omega
  have e3 : 0x80 + v / 64 % 64 = v / 64 % 64 + 0x80 := by omega
  have e4 : 0x80 + v % 64 = v % 64 + 0x80 := by omega
  rw [e1, e2, e3, e4]

theorem exists_char_of_isScalar {r : Rune} (h : isScalar r = true) : ∃ c : Char, c.toNat = r := by
  have hv : r.isValidChar := by
    rw [isScalar_iff] at h
    show r < 0xd800 ∨ (0xdfff < r ∧ r < 0x110000)
    omega
  refine ⟨Char.ofNatAux r hv, ?_⟩
  simp [Char.toNat, Char.ofNatAux]

theorem utf8_eq_encodeRunes (cs : List Char) : utf8 cs = encodeRunes (cs.map Char.toNat) := by
  induction cs with
  | nil => rfl
  | cons c cs ih =>
    simp only [utf8, List.flatMap_cons, List.map_cons, encodeRunes_cons] at *
    rw [ih, encodeRune_char]

theorem validUtf8_iff {s : Bytes} :
    ValidUtf8 s ↔ ∃ rs : List Rune, (∀ r ∈ rs, isScalar r = true) ∧ s = encodeRunes rs := by
  constructor
  · rintro ⟨cs, rfl⟩
    refine ⟨cs.map Char.toNat, ?_, utf8_eq_encodeRunes cs⟩
    intro r hr
    obtain ⟨c, _, rfl⟩ := List.mem_map.mp hr
    exact char_isScalar c
  · rintro ⟨rs, h, rfl⟩
    induction rs with
    | nil => exact ⟨[], rfl⟩
    | cons r rs ih =>
      obtain ⟨cs, hcs⟩ := ih (fun r hr => h r (by simp [hr]))
      obtain ⟨c, hc⟩ := exists_char_of_isScalar (h r (by simp))
      refine ⟨c :: cs, ?_⟩
      rw [encodeRunes_cons, hcs, ← hc, encodeRune_char]
      rfl

theorem validUtf8_encodeRunes {rs : List Rune} (h : ∀ r ∈ rs, isScalar r = true) :
    ValidUtf8 (encodeRunes rs) := validUtf8_iff.mpr ⟨rs, h, rfl⟩

theorem encodeRunes_runesOf {s : Bytes} (h : ValidUtf8 s) : encodeRunes (runesOf s) = s := by
  obtain ⟨rs, hs, rfl⟩ := validUtf8_iff.mp h
  rw [runesOf_encodeRunes hs]

theorem encodeRune_nonscalar {r : Rune} (h : isScalar r = false) :
    encodeRune r = encodeRune runeError := by
  have h' : ¬ (isScalar r = true) := by simp [h]
  rw [isScalar_iff] at h'
  unfold encodeRune
  rw [if_neg (by omega), if_neg (by omega), h]
  simp [runeError, isScalar]

theorem validUtf8_encodeRune (r : Rune) : ValidUtf8 (encodeRune r) := by
  by_cases h : isScalar r = true
  · have := validUtf8_encodeRunes (rs := [r]) (by simpa using h)
    simpa [encodeRunes] using this
  · rw [encodeRune_nonscalar (by simpa using h)]
    have := validUtf8_encodeRunes (rs := [runeError]) (by simp [runeError, isScalar])
    simpa [encodeRunes] using this

theorem ValidUtf8.nil : ValidUtf8 [] := ⟨[], rfl⟩

theorem ValidUtf8.append {a b : Bytes} (ha : ValidUtf8 a) (hb : ValidUtf8 b) : ValidUtf8 (a ++ b) := by
  obtain ⟨x, rfl⟩ := ha
  obtain ⟨y, rfl⟩ := hb
  exact ⟨x ++ y, by simp [utf8]⟩

theorem pick_ge {c : Prop} [Decidable c] {x n m : Nat} (hm : m ≤ runeError)
    (h : c → m ≤ x) : m ≤ (if c then (x, n) else (runeError, 1)).1 := by
  by_cases hc : c
  · rw [if_pos hc]; exact h hc
  · rw [if_neg hc]; exact hm

/-- An ASCII code point is decoded from that byte only. -/
theorem decode_ascii (b0 : UInt8) (t : Bytes) (h : (decodeRune (b0 :: t)).1 < 0x80) :
    (decodeRune (b0 :: t)).1 = b0.toNat := by
  by_cases h1 : b0.toNat < 0x80
  · unfold decodeRune; simp only; rw [if_pos h1]
  · exfalso
    apply Nat.not_le.mpr h
    clear h
    have hb0 : b0.toNat < 256 := b0.toNat_lt
    unfold decodeRune
    simp only
    rw [if_neg h1]
    by_cases h2 : b0.toNat < 0xC2
    · rw [if_pos h2]; decide
    rw [if_neg h2]
    by_cases h3 : b0.toNat < 0xE0
    · rw [if_pos h3]
      split
      · apply pick_ge (by decide)
        intro hr
        simp [inRange] at hr
        omega
      · decide
    rw [if_neg h3]
    by_cases h4 : b0.toNat < 0xF0
    · rw [if_pos h4]
      split
      · apply pick_ge (by decide)
        intro hr
        simp [inRange] at hr
        by_cases e1 : b0.toNat = 0xE0
        · simp [e1] at hr; omega
        · by_cases e2 : b0.toNat = 0xED
          · simp [e2] at hr; omega
          · simp [e1, e2] at hr; omega
      · decide
    rw [if_neg h4]
    by_cases h5 : b0.toNat < 0xF5
    · rw [if_pos h5]
      split
      · apply pick_ge (by decide)
        intro hr
        simp [inRange] at hr
        by_cases e1 : b0.toNat = 0xF0
        · simp [e1] at hr; omega
        · by_cases e2 : b0.toNat = 0xF4
          · simp [e2] at hr; omega
          · simp [e1, e2] at hr; omega
      · decide
    rw [if_neg h5]; decide

theorem mem_runesOf_ascii {r : Rune} (hr : r < 0x80) {s : Bytes} (h : r ∈ runesOf s) :
    UInt8.ofNat r ∈ s := by
  induction s using runesOf.induct with
  | case1 => simp [runesOf_nil] at h
  | case2 b t ih =>
    rw [runesOf_cons, List.mem_cons] at h
    rcases h with h | h
    · have := decode_ascii b t (by rw [← h]; exact hr)
      rw [← h] at this
      rw [this]
      simp
    · exact List.mem_of_mem_drop (ih h)

theorem mem_encodeRune_ascii {r : Rune} {b : UInt8} (hb : b.toNat < 0x80) (h : b ∈ encodeRune r) :
    r = b.toNat := by
  have key : ∀ n : Nat, 0x80 ≤ n → n < 256 → b ≠ UInt8.ofNat n := by
    intro n h1 h2 e
    have := congrArg UInt8.toNat e
    rw [UInt8.toNat_ofNat'] at this
    omega
  unfold encodeRune at h
  split at h
  · have := List.mem_singleton.mp h
    rw [this, UInt8.toNat_ofNat']
    omega
  · exfalso
    split at h
    · simp only [List.mem_cons, List.not_mem_nil, or_false] at h
      rcases h with h | h <;> exact key _ (by omega) (by omega) h
    · split at h
      · simp only [List.mem_cons, List.not_mem_nil, or_false] at h
        rcases h with h | h | h <;> subst h <;> revert hb <;> decide
      · rename_i hs
        simp only [Bool.not_eq_true', Bool.not_eq_false, isScalar_iff] at hs
        split at h
        · simp only [List.mem_cons, List.not_mem_nil, or_false] at h
          rcases h with h | h | h <;> exact key _ (by omega) (by omega) h
        · simp only [List.mem_cons, List.not_mem_nil, or_false] at h
          rcases h with h | h | h | h <;> exact key _ (by omega) (by omega) h

end Readline
