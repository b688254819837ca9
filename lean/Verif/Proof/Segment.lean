import Verif.Model.Moji
import Verif.Proof.Utf8
import Verif.Spec.Segment
/-!
# Lemmas about cutting text into units
-/
namespace Readline
open Spec

theorem rune2moji_write (C : Cfg) (r : Rune) (pos : Int) :
    (rune2moji C r pos).write = encodeRune r := by
  unfold rune2moji
  split
  · subst_vars; rfl
  repeat' split
  all_goals rfl

/-- A unit that joins the previous one. -/
def isJoiner (C : Cfg) (r : Rune) : Bool :=
  isZeroWidthJoin C r || isVariationSelectorLike C r || isEmojiModifier C r

/-- Change the head of a list. -/
def mapHead (f : α → α) : List α → List α
  | [] => []
  | a :: l => f a :: l

/-- `StringToMoji` on code points; `j` = the last code point was a join control. -/
def segLoop (C : Cfg) : List Rune → Bool → List Moji → Int → List Moji
  | [], j, acc, _ => (if j then mapHead (fun m => .zwj m (.raw runeError)) acc else acc).reverse
  | r :: rs, j, acc, pos =>
    if j then segLoop C rs false (mapHead (fun m => .zwj m (.raw r)) acc) pos
    else if acc = [] ∨ isJoiner C r = false then
      segLoop C rs false (rune2moji C r pos :: acc) (pos + (rune2moji C r pos).width C)
    else if isZeroWidthJoin C r then segLoop C rs true acc pos
    else if isVariationSelectorLike C r then
      segLoop C rs false (mapHead (fun m => .vari m (.raw r)) acc) pos
    else segLoop C rs false (mapHead (fun m => .modi m (.raw r)) acc) pos

theorem stringToMojiLoop_nil (C : Cfg) (acc : List Moji) (pos : Int) :
    stringToMojiLoop C [] acc pos = acc.reverse := by
  rw [stringToMojiLoop.eq_def]

theorem stringToMojiLoop_eq (C : Cfg) (s : Bytes) (acc : List Moji) (pos : Int) :
    stringToMojiLoop C s acc pos = segLoop C (runesOf s) false acc pos := by
  fun_induction stringToMojiLoop C s acc pos with
  | case1 acc pos => simp [runesOf_nil, segLoop]
  | case2 pos b t r s1 last rest hz next s2 ih =>
    rw [runesOf_cons, segLoop, ih]
    have hz' : isZeroWidthJoin C (decodeRune (b :: t)).1 = true := hz
    simp only [isJoiner, hz', Bool.true_or]
    rw [if_neg (by simp), if_neg (by simp), if_pos trivial]
    show _ = segLoop C (runesOf s1) true (last :: rest) pos
    have hn : next = (decodeRune s1).1 := rfl
    have hs2 : s2 = s1.drop (decodeRune s1).2 := rfl
    clear_value s1
    cases s1 with
    | nil => simp [hn, hs2, decodeRune, runesOf_nil, segLoop, mapHead]
    | cons b' t' =>
      rw [runesOf_cons, segLoop, if_pos rfl, hn, hs2]; rfl
  | case3 pos b t r s1 last rest hz hv ih =>
    rw [runesOf_cons, segLoop, ih]
    have hv' : isVariationSelectorLike C (decodeRune (b :: t)).1 = true := hv
    have hz' : isZeroWidthJoin C (decodeRune (b :: t)).1 = false := by simpa using hz
    simp only [isJoiner, hv', hz']
    simp [mapHead, r, s1]
  | case4 pos b t r s1 last rest hz hv hm ih =>
    rw [runesOf_cons, segLoop, ih]
    have hv' : isVariationSelectorLike C (decodeRune (b :: t)).1 = false := by simpa using hv
    have hz' : isZeroWidthJoin C (decodeRune (b :: t)).1 = false := by simpa using hz
    have hm' : isEmojiModifier C (decodeRune (b :: t)).1 = true := hm
    simp only [isJoiner, hv', hz', hm']
    simp [mapHead, r, s1]
  | case5 pos b t r s1 last rest hz hv hm m ih =>
    rw [runesOf_cons, segLoop, ih]
    have hv' : isVariationSelectorLike C (decodeRune (b :: t)).1 = false := by simpa using hv
    have hz' : isZeroWidthJoin C (decodeRune (b :: t)).1 = false := by simpa using hz
    have hm' : isEmojiModifier C (decodeRune (b :: t)).1 = false := by simpa using hm
    simp only [isJoiner, hv', hz', hm']
    simp [m, r, s1]
  | case6 pos b t r s1 m ih =>
    rw [runesOf_cons, segLoop, ih]
    simp [m, r, s1]

theorem stringToMoji_eq (C : Cfg) (s : Bytes) :
    stringToMoji C s = segLoop C (runesOf s) false [] 0 := stringToMojiLoop_eq C s [] 0

/-- Text of a list of units. -/
def mojisText (ms : List Moji) : Bytes := ms.flatMap Moji.write

theorem mojisText_append (a b : List Moji) : mojisText (a ++ b) = mojisText a ++ mojisText b := by
  simp [mojisText]

theorem isZeroWidthJoin_iff {C : Cfg} {r : Rune} :
    isZeroWidthJoin C r = true ↔ C.zwjOk = true ∧ (r = 0x200C ∨ r = 0x200D) := by
  simp [isZeroWidthJoin]

/-- The text of the units of a code-point list. -/
theorem segLoop_text (C : Cfg) (rs : List Rune) (j : Bool) (acc : List Moji) (pos : Int)
    (hj : j = true → acc ≠ []) :
    mojisText (segLoop C rs j acc pos) =
      mojisText acc.reverse ++ (if j then encodeRune zwjRune else []) ++
        encodeRunes (rejoin C.zwjOk
          (if j then .joining else if acc = [] then .fresh else .started) rs) := by
  induction rs generalizing j acc pos with
  | nil =>
    cases j with
    | false => by_cases h : acc = [] <;> simp [segLoop, rejoin, encodeRunes, h]
    | true =>
      cases acc with
      | nil => simp at hj
      | cons m l => simp [segLoop, rejoin, mapHead, mojisText, Moji.write, encodeRunes, runeError]
  | cons r rs ih =>
    rw [segLoop]
    cases j with
    | true =>
      cases acc with
      | nil => simp at hj
      | cons m l =>
        rw [if_pos rfl, ih _ _ _ (by simp)]
        simp [mapHead, rejoin, mojisText, Moji.write, encodeRunes_cons]
    | false =>
      rw [if_neg (by simp)]
      split
      · rename_i h
        rw [ih _ _ _ (by simp)]
        cases acc with
        | nil => simp [rejoin, mojisText, encodeRunes_cons, rune2moji_write]
        | cons m l =>
          have hz : isZeroWidthJoin C r = false := by simp [isJoiner] at h; exact h.1.1
          have hz' : ¬ (C.zwjOk = true ∧ (r = 0x200C ∨ r = 0x200D)) := by
            rw [← isZeroWidthJoin_iff]; simp [hz]
          simp [rejoin, hz', mojisText, encodeRunes_cons, rune2moji_write]
      · rename_i h
        cases acc with
        | nil => simp at h
        | cons m l =>
          split
          · rename_i hz
            have hz' := isZeroWidthJoin_iff.mp hz
            rw [ih _ _ _ (by simp)]
            simp [rejoin, hz', mojisText, encodeRunes_cons, zwjRune]
          · rename_i hz
            have hz' : ¬ (C.zwjOk = true ∧ (r = 0x200C ∨ r = 0x200D)) := by
              rw [← isZeroWidthJoin_iff]; exact hz
            split <;>
            · rw [ih _ _ _ (by simp)]
              simp [rejoin, hz', mojisText, encodeRunes_cons, mapHead, Moji.write]

theorem stringToMoji_text (C : Cfg) (s : Bytes) :
    mojisText (stringToMoji C s) = encodeRunes (rejoin C.zwjOk .fresh (runesOf s)) := by
  rw [stringToMoji_eq, segLoop_text _ _ _ _ _ (by simp)]
  simp [mojisText]

end Readline
