import Verif.Spec.Reads
import Verif.Proof.Source
import Verif.Props.C06
/-!
# The decoder on arbitrary bytes
-/
namespace Readline
open Spec

theorem pick_prefix {c : Prop} [Decidable c] {x n : Nat} {s : Bytes} (h : c → encodeRune x <+: s) :
    (if c then (x, n) else (runeError, 1)) = (runeError, 1) ∨ encodeRune (if c then (x, n) else (runeError, 1)).1 <+: s := by
  by_cases hc : c
  · rw [if_pos hc]; exact Or.inr (h hc)
  · rw [if_neg hc]; exact Or.inl rfl

theorem ofNat_eq {b : UInt8} {n : Nat} (h : n = b.toNat) : UInt8.ofNat n = b := by
  subst h; simp

/-- What is decoded is there. -/
theorem decode_prefix (b0 : UInt8) (t : Bytes) :
    decodeRune (b0 :: t) = (runeError, 1) ∨ encodeRune (decodeRune (b0 :: t)).1 <+: b0 :: t := by
  have hb0 : b0.toNat < 256 := b0.toNat_lt
  unfold decodeRune
  simp only
  by_cases h1 : b0.toNat < 0x80
  · rw [if_pos h1]
    right
    refine ⟨t, ?_⟩
    simp only [encodeRune, if_pos h1]
    simp
  rw [if_neg h1]
  by_cases h2 : b0.toNat < 0xC2
  · rw [if_pos h2]; exact Or.inl rfl
  rw [if_neg h2]
  by_cases h3 : b0.toNat < 0xE0
  · rw [if_pos h3]
    split
    · next b1 r =>
      refine pick_prefix fun hr => ⟨r, ?_⟩
      simp [inRange] at hr
      unfold encodeRune
      rw [if_neg (by omega), if_pos (by omega), ofNat_eq (b := b0) (by omega), ofNat_eq (b := b1) (by omega)]
      rfl
    · exact Or.inl rfl
  rw [if_neg h3]
  by_cases h4 : b0.toNat < 0xF0
  · rw [if_pos h4]
    split
    · next b1 b2 r =>
      refine pick_prefix fun hr => ⟨r, ?_⟩
      simp [inRange] at hr
      have k : 0x80 ≤ b1.toNat ∧ b1.toNat ≤ 0xBF ∧ (b0.toNat = 0xE0 → 0xA0 ≤ b1.toNat) ∧ (b0.toNat = 0xED → b1.toNat ≤ 0x9F) := by
        by_cases e1 : b0.toNat = 0xE0
        · simp [e1] at hr; omega
        · by_cases e2 : b0.toNat = 0xED
          · simp [e2] at hr; omega
          · simp [e1, e2] at hr; omega
      have hs : isScalar ((b0.toNat - 0xE0) * 4096 + (b1.toNat - 0x80) * 64 + (b2.toNat - 0x80)) = true := by
        rw [isScalar_iff]; omega
      unfold encodeRune
      rw [if_neg (by omega), if_neg (by omega), hs, if_neg (by simp), if_pos (by omega), ofNat_eq (b := b0) (by omega),
        ofNat_eq (b := b1) (by omega), ofNat_eq (b := b2) (by omega)]
      rfl
    · exact Or.inl rfl
  rw [if_neg h4]
  by_cases h5 : b0.toNat < 0xF5
  · rw [if_pos h5]
    split
    · next b1 b2 b3 r =>
      refine pick_prefix fun hr => ⟨r, ?_⟩
      simp [inRange] at hr
      have k : 0x80 ≤ b1.toNat ∧ b1.toNat ≤ 0xBF ∧ (b0.toNat = 0xF0 → 0x90 ≤ b1.toNat) ∧ (b0.toNat = 0xF4 → b1.toNat ≤ 0x8F) := by
        by_cases e1 : b0.toNat = 0xF0
        · simp [e1] at hr; omega
        · by_cases e2 : b0.toNat = 0xF4
          · simp [e2] at hr; omega
          · simp [e1, e2] at hr; omega
      have hs : isScalar ((b0.toNat - 0xF0) * 262144 + (b1.toNat - 0x80) * 4096 + (b2.toNat - 0x80) * 64 + (b3.toNat - 0x80)) = true := by
        rw [isScalar_iff]; omega
      unfold encodeRune
      rw [if_neg (by omega), if_neg (by omega), hs, if_neg (by simp), if_neg (by omega), ofNat_eq (b := b0) (by omega),
        ofNat_eq (b := b1) (by omega), ofNat_eq (b := b2) (by omega), ofNat_eq (b := b3) (by omega)]
      rfl
    · exact Or.inl rfl
  rw [if_neg h5]
  exact Or.inl rfl

theorem decode_char (c : Char) (t : Bytes) :
    decodeRune (String.utf8EncodeChar c ++ t) = (c.toNat, (String.utf8EncodeChar c).length) := by
  rw [← encodeRune_char]
  exact decode_encode (char_isScalar c) t

/-- Where no character begins, one byte is read as U+FFFD. -/
theorem decode_bad {b : UInt8} {t : Bytes} (h : ∀ c : Char, ¬ String.utf8EncodeChar c <+: b :: t) :
    decodeRune (b :: t) = (runeError, 1) := by
  rcases decode_prefix b t with h' | h'
  · exact h'
  · exfalso
    obtain ⟨c, hc⟩ := exists_char_of_isScalar (decode_isScalar (b :: t))
    rw [← hc, encodeRune_char] at h'
    exact h c h'

theorem reads_runes {s : Bytes} {cs : List Char} (h : ReadAs s cs) : runesOf s = cs.map Char.toNat := by
  induction h with
  | nil => exact runesOf_nil
  | char _ ih =>
    rw [← encodeRune_char, runesOf_encode_append (char_isScalar _), ih]
    rfl
  | bad hb _ ih =>
    rw [runesOf_cons, decode_bad hb]
    show _ :: runesOf _ = _
    rw [List.drop_succ_cons, List.drop_zero, ih]
    rfl

theorem reads_exists (s : Bytes) : ∃ cs, ReadAs s cs := by
  induction s using runesOf.induct with
  | case1 => exact ⟨[], .nil⟩
  | case2 b t ih =>
    obtain ⟨cs, ih⟩ := ih
    by_cases h : ∃ c : Char, String.utf8EncodeChar c <+: b :: t
    · obtain ⟨c, r, hr⟩ := h
      rw [← hr, decode_char, List.drop_left] at ih
      exact ⟨c :: cs, by rw [← hr]; exact .char ih⟩
    · have h : ∀ c : Char, ¬ String.utf8EncodeChar c <+: b :: t := fun c hc => h ⟨c, hc⟩
      rw [decode_bad h] at ih
      exact ⟨_, .bad h ih⟩

theorem char_map_inj {a c : List Char} (h : a.map Char.toNat = c.map Char.toNat) : a = c := by
  have inj : ∀ x y : Char, x.toNat = y.toNat → x = y := fun x y h => by
    rw [← Char.ofNat_toNat x, h, Char.ofNat_toNat]
  exact (List.map_inj_right inj).mp h

theorem reads_unique {s : Bytes} {cs ds : List Char} (h : ReadAs s cs) (h' : ReadAs s ds) : cs = ds :=
  char_map_inj ((reads_runes h).symm.trans (reads_runes h'))

/-- Text is read as it is. -/
theorem reads_text (cs : List Char) : ReadAs (utf8 cs) cs := by
  induction cs with
  | nil => exact .nil
  | cons c cs ih => exact .char ih

theorem reads_runes_eq {s : Bytes} {cs : List Char} (h : ReadAs s cs) : runesOf s = runesOf (utf8 cs) :=
  (reads_runes h).trans (reads_runes (reads_text cs)).symm

theorem reads_units {s : Bytes} {cs : List Char} (h : ReadAs s cs) (C : Cfg) : stringToMoji C s = stringToMoji C (utf8 cs) := by
  rw [stringToMoji_eq, stringToMoji_eq, reads_runes_eq h]

end Readline
