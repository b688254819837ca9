import Verif.Proof.Split
import Verif.Spec.Word
/-!
# White space and the ends of words
-/
namespace Readline
open Spec

theorem isSpaceRune_iff (c : Char) : isSpaceRune c.toNat = true ↔ White c := by
  unfold isSpaceRune White
  simp only [Bool.or_eq_true, Bool.and_eq_true, decide_eq_true_eq, beq_iff_eq, List.mem_cons,
    List.not_mem_nil, or_false]
  omega

theorem rune2moji_toRune {C : Cfg} {r : Rune} (h : r ≠ 9) : (rune2moji C r 0).norm.toRune? = some r := by
  unfold rune2moji
  rw [if_neg h]
  repeat' split
  all_goals rfl

theorem utf8_single (c : Char) : utf8 [c] = encodeRune c.toNat := by
  rw [utf8_eq_encodeRunes]
  simp [encodeRunes]

/-- The unit whose text is one character. -/
theorem Built.eq_char {C : Cfg} {m : Moji} (h : Built C m) {c : Char} (hc : m.write = utf8 [c]) :
    m = (rune2moji C c.toNat 0).norm := by
  apply h.write_inj (.base (char_isScalar c))
  rw [hc, utf8_single, Moji.norm_write, rune2moji_write]

theorem Built.toRune {C : Cfg} {m : Moji} (h : Built C m) {c : Char} (hc : m.write = utf8 [c])
    (ht : c ≠ '\t') : m.toRune? = some c.toNat := by
  rw [h.eq_char hc]
  apply rune2moji_toRune
  intro h9
  apply ht
  apply Char.ext
  exact UInt32.toNat_inj.mp h9

theorem isScalar_char {r : Rune} (h : isScalar r = true) : ∃ c : Char, c.toNat = r := by
  have hv : r.isValidChar := by
    unfold isScalar at h
    simp at h
    unfold Nat.isValidChar
    omega
  refine ⟨Char.ofNat r, ?_⟩
  simp [Char.ofNat, hv, Char.ofNatAux, Char.toNat]

/-- White space for the editor is white space but for tabs. -/
theorem Built.isSpace_iff {C : Cfg} {m : Moji} (h : Built C m) :
    m.isSpace = true ↔ Blank m.write ∧ m.write ≠ [9] := by
  constructor
  · intro hs
    cases h with
    | @base r hr =>
      obtain ⟨c, rfl⟩ := isScalar_char hr
      by_cases h9 : c.toNat = 9
      · rw [h9] at hs
        simp [rune2moji, Moji.norm, Moji.isSpace, Moji.toRune?] at hs
      · unfold Moji.isSpace at hs
        rw [rune2moji_toRune h9] at hs
        have hw : (rune2moji C c.toNat 0).norm.write = utf8 [c] := by
          rw [Moji.norm_write, rune2moji_write, utf8_single]
        refine ⟨⟨c, (isSpaceRune_iff c).mp hs, hw⟩, ?_⟩
        rw [hw]
        intro h
        have := congrArg (fun t => (decodeRune t).1) h
        rw [utf8_single] at this
        have e := decode_encode (char_isScalar c) []
        rw [List.append_nil] at e
        rw [e] at this
        exact h9 (this.trans (by decide))
    | zwj => cases hs
    | vari => cases hs
    | modi => cases hs
  · rintro ⟨⟨c, hc, hw⟩, h9⟩
    have ht : c ≠ '\t' := by
      rintro rfl
      exact h9 (by rw [hw]; decide)
    unfold Moji.isSpace
    rw [h.toRune hw ht]
    exact (isSpaceRune_iff c).mpr hc

/-- What `dropWhile` from the right does. -/
theorem dropWhile_right {α : Type} (p : α → Bool) (l : List α) :
    ∃ a b, l = a ++ b ∧ (l.reverse.dropWhile p).length = a.length ∧ (∀ x ∈ b, p x = true) ∧
      (a = [] ∨ ∃ a' x, a = a' ++ [x] ∧ p x = false) := by
  refine ⟨(l.reverse.dropWhile p).reverse, (l.reverse.takeWhile p).reverse, ?_, by simp, ?_, ?_⟩
  · rw [← List.reverse_append, List.takeWhile_append_dropWhile, List.reverse_reverse]
  · intro x hx
    have := List.mem_reverse.mp hx
    exact (List.all_eq_true.mp (List.all_takeWhile (p := p) (l := l.reverse))) x this
  · cases hd : l.reverse.dropWhile p with
    | nil => left; rfl
    | cons x t =>
      right
      refine ⟨t.reverse, x, by simp, ?_⟩
      have := List.head?_dropWhile_not p l.reverse
      rw [hd] at this
      simpa using this

/-- What `dropWhile` does. -/
theorem dropWhile_left {α : Type} (p : α → Bool) (l : List α) :
    ∃ a b, l = a ++ b ∧ l.dropWhile p = b ∧ (∀ x ∈ a, p x = true) ∧
      (b = [] ∨ ∃ x b', b = x :: b' ∧ p x = false) := by
  refine ⟨l.takeWhile p, l.dropWhile p, (List.takeWhile_append_dropWhile).symm, rfl, ?_, ?_⟩
  · exact List.all_eq_true.mp List.all_takeWhile
  · cases hd : l.dropWhile p with
    | nil => left; rfl
    | cons x t =>
      right
      refine ⟨x, t, rfl, ?_⟩
      have := List.head?_dropWhile_not p l
      rw [hd] at this
      simpa using this

end Readline
