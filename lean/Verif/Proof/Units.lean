import Verif.Proof.Segment
import Verif.Proof.Refine
import Verif.Spec.Joiner
/-!
# Units survive being written out and cut again
-/
namespace Readline
open Spec

/-- `StringToMoji` on code points without tab columns. -/
def segN (C : Cfg) : List Rune → Bool → List Moji → List Moji
  | [], j, acc => (if j then mapHead (fun m => .zwj m (.raw runeError)) acc else acc).reverse
  | r :: rs, j, acc =>
    if j then segN C rs false (mapHead (fun m => .zwj m (.raw r)) acc)
    else if acc = [] ∨ isJoiner C r = false then
      segN C rs false ((rune2moji C r 0).norm :: acc)
    else if isZeroWidthJoin C r then segN C rs true acc
    else if isVariationSelectorLike C r then
      segN C rs false (mapHead (fun m => .vari m (.raw r)) acc)
    else segN C rs false (mapHead (fun m => .modi m (.raw r)) acc)

theorem rune2moji_norm (C : Cfg) (r : Rune) (p : Int) :
    (rune2moji C r p).norm = (rune2moji C r 0).norm := by
  unfold rune2moji
  split
  · rfl
  repeat' split
  all_goals rfl

theorem mapHead_norm (f g : Moji → Moji) (h : ∀ m, (f m).norm = g m.norm) (l : List Moji) :
    (mapHead f l).map Moji.norm = mapHead g (l.map Moji.norm) := by
  cases l <;> simp [mapHead, h]

theorem segLoop_norm (C : Cfg) (rs : List Rune) (j : Bool) (acc : List Moji) (pos : Int) :
    (segLoop C rs j acc pos).map Moji.norm = segN C rs j (acc.map Moji.norm) := by
  induction rs generalizing j acc pos with
  | nil =>
    unfold segLoop segN
    cases j with
    | false => simp
    | true =>
      simp only [if_true, List.map_reverse]
      rw [mapHead_norm _ (fun m => .zwj m (.raw runeError)) (by intro m; rfl)]
  | cons r rs ih =>
    unfold segLoop segN
    cases j with
    | true =>
      simp only [if_true]
      rw [ih, mapHead_norm _ (fun m => .zwj m (.raw r)) (by intro m; rfl)]
    | false =>
      simp only [Bool.false_eq_true, if_false, List.map_eq_nil_iff]
      split
      · rw [ih]; simp only [List.map_cons, rune2moji_norm C r pos]
      · split
        · rw [ih]
        · split
          · rw [ih, mapHead_norm _ (fun m => .vari m (.raw r)) (by intro m; rfl)]
          · rw [ih, mapHead_norm _ (fun m => .modi m (.raw r)) (by intro m; rfl)]

theorem segs_eq (C : Cfg) (t : Bytes) : segs C t = segN C (runesOf t) false [] := by
  unfold segs
  rw [stringToMoji_eq, segLoop_norm]
  rfl

/-- The units cutting can produce. -/
inductive Built (C : Cfg) : Moji → Prop where
  | base {r : Rune} : isScalar r = true → Built C (rune2moji C r 0).norm
  | zwj {m : Moji} {n : Rune} : C.zwjOk = true → Built C m → isScalar n = true →
      Built C (.zwj m (.raw n))
  | vari {m : Moji} {r : Rune} : Built C m → isScalar r = true → isZeroWidthJoin C r = false →
      isVariationSelectorLike C r = true → Built C (.vari m (.raw r))
  | modi {m : Moji} {r : Rune} : Built C m → isScalar r = true → isZeroWidthJoin C r = false →
      isVariationSelectorLike C r = false → isEmojiModifier C r = true → Built C (.modi m (.raw r))

theorem segN_built (C : Cfg) (rs : List Rune) (j : Bool) (acc : List Moji)
    (hrs : ∀ r ∈ rs, isScalar r = true) (hj : j = true → C.zwjOk = true)
    (hacc : ∀ m ∈ acc, Built C m) : ∀ m ∈ segN C rs j acc, Built C m := by
  have hmap : ∀ (f : Moji → Moji) (l : List Moji), (∀ m ∈ l, Built C m) →
      (∀ m, Built C m → Built C (f m)) → ∀ m ∈ mapHead f l, Built C m := by
    intro f l hl hf m hm
    cases l with
    | nil => cases hm
    | cons a l =>
      simp only [mapHead, List.mem_cons] at hm
      rcases hm with rfl | hm
      · exact hf _ (hl a (by simp))
      · exact hl m (by simp [hm])
  induction rs generalizing j acc with
  | nil =>
    intro m hm
    unfold segN at hm
    rw [List.mem_reverse] at hm
    cases j with
    | false => exact hacc m (by simpa using hm)
    | true =>
      exact hmap _ acc hacc (fun m hm => .zwj (n := runeError) (hj rfl) hm (by decide)) m (by simpa using hm)
  | cons r rs ih =>
    have hr : isScalar r = true := hrs r (by simp)
    have hrs' : ∀ r ∈ rs, isScalar r = true := fun x hx => hrs x (by simp [hx])
    unfold segN
    cases j with
    | true =>
      rw [if_pos rfl]
      exact ih false _ hrs' (by simp) (hmap _ acc hacc (fun m hm => .zwj (hj rfl) hm hr))
    | false =>
      rw [if_neg (by simp)]
      split
      · apply ih false _ hrs' (by simp)
        intro m hm
        rcases List.mem_cons.mp hm with rfl | hm
        · exact .base hr
        · exact hacc m hm
      · rename_i hc
        split
        · rename_i hz
          exact ih true _ hrs' (fun _ => (isZeroWidthJoin_iff.mp hz).1) hacc
        · rename_i hz
          split
          · rename_i hv
            exact ih false _ hrs' (by simp) (hmap _ acc hacc
              (fun m hm => .vari hm hr (by simpa using hz) hv))
          · rename_i hv
            have hm : isEmojiModifier C r = true := by
              simp only [not_or, isJoiner] at hc
              have := hc.2
              simp only [Bool.not_eq_true] at hz hv
              simp [hz, hv] at this
              exact this
            exact ih false _ hrs' (by simp) (hmap _ acc hacc
              (fun m hm' => .modi hm' hr (by simpa using hz) (by simpa using hv) hm))

theorem segs_built (C : Cfg) (t : Bytes) : ∀ m ∈ segs C t, Built C m := by
  rw [segs_eq]
  exact segN_built C _ _ _ (runesOf_isScalar t) (by simp) (by simp)

/-- The code point a unit starts with. -/
def firstRune : Moji → Rune
  | .tab _ => 9
  | .raw r | .esc r | .ri r | .ctrl r | .flag r => r
  | .zwj a _ | .modi a _ | .vari a _ => firstRune a

/-- The unit starts with a code point that attaches to the one before: it is alone only
because it was first in its text. -/
def Orphan (C : Cfg) (m : Moji) : Prop := isJoiner C (firstRune m) = true

theorem firstRune_base (C : Cfg) (r : Rune) : firstRune (rune2moji C r 0).norm = r := by
  unfold rune2moji
  split
  · subst_vars; rfl
  repeat' split
  all_goals rfl

theorem Built.firstRune_scalar {C : Cfg} {m : Moji} (h : Built C m) : isScalar (firstRune m) = true := by
  induction h with
  | base h => rw [firstRune_base]; exact h
  | zwj _ _ _ ih => exact ih
  | vari _ _ _ _ ih => exact ih
  | modi _ _ _ _ _ ih => exact ih

theorem runesOf_raw (r : Rune) (h : isScalar r = true) (t : Bytes) :
    runesOf ((Moji.raw r).write ++ t) = r :: runesOf t := runesOf_encode_append h t

/-- A built unit is cut off its text as one piece. -/
theorem Built.cut {C : Cfg} {m : Moji} (h : Built C m) (t : Bytes) (acc : List Moji)
    (ha : acc = [] ∨ ¬ Orphan C m) :
    segN C (runesOf (m.write ++ t)) false acc = segN C (runesOf t) false (m :: acc) := by
  induction h generalizing t with
  | @base r hr =>
    rw [Moji.norm_write, rune2moji_write, runesOf_encode_append hr, segN, if_neg (by simp)]
    unfold Orphan at ha
    rw [firstRune_base] at ha
    rw [if_pos (by simpa using ha)]
  | @zwj m n hz hm hn ih =>
    have : (Moji.zwj m (.raw n)).write ++ t
        = m.write ++ (encodeRune zwjRune ++ (encodeRune n ++ t)) := by
      simp [Moji.write]
    rw [this, ih _ ha, runesOf_encode_append (by decide), runesOf_encode_append hn, segN,
      if_neg (by simp)]
    have hj : isZeroWidthJoin C zwjRune = true := isZeroWidthJoin_iff.mpr ⟨hz, Or.inr rfl⟩
    rw [if_neg (by simp [isJoiner, hj]), if_pos hj, segN, if_pos rfl]
    rfl
  | @vari m r hm hr h1 h2 ih =>
    have : (Moji.vari m (.raw r)).write ++ t = m.write ++ (encodeRune r ++ t) := by
      simp [Moji.write]
    rw [this, ih _ ha, runesOf_encode_append hr, segN, if_neg (by simp),
      if_neg (by simp [isJoiner, h2]), if_neg (by simp [h1]), if_pos h2]
    rfl
  | @modi m r hm hr h1 h2 h3 ih =>
    have : (Moji.modi m (.raw r)).write ++ t = m.write ++ (encodeRune r ++ t) := by
      simp [Moji.write]
    rw [this, ih _ ha, runesOf_encode_append hr, segN, if_neg (by simp),
      if_neg (by simp [isJoiner, h3]), if_neg (by simp [h1]), if_neg (by simp [h2])]
    rfl

theorem lineText_cut {C : Cfg} (l : List Moji) (hb : ∀ m ∈ l, Built C m) (ho : ∀ m ∈ l, ¬ Orphan C m)
    (t : Bytes) (acc : List Moji) :
    segN C (runesOf (lineText l ++ t)) false acc = segN C (runesOf t) false (l.reverse ++ acc) := by
  induction l generalizing acc with
  | nil => rfl
  | cons m l ih =>
    have : lineText (m :: l) ++ t = m.write ++ (lineText l ++ t) := by simp [lineText]
    rw [this, (hb m (by simp)).cut _ _ (Or.inr (ho m (by simp))),
      ih (fun x hx => hb x (by simp [hx])) (fun x hx => ho x (by simp [hx]))]
    simp

/-- Cutting the text of units gives the units back; only the first may start with an
attaching code point. -/
theorem segs_lineText' {C : Cfg} (m : Moji) (l : List Moji) (hb : ∀ x ∈ m :: l, Built C x)
    (ho : ∀ x ∈ l, ¬ Orphan C x) : segs C (lineText (m :: l)) = m :: l := by
  rw [segs_eq]
  have : lineText (m :: l) = m.write ++ lineText l := by simp [lineText]
  rw [this, (hb m (by simp)).cut _ _ (Or.inl rfl)]
  have h := lineText_cut l (fun x hx => hb x (by simp [hx])) ho [] [m]
  rw [List.append_nil] at h
  rw [h, runesOf_nil, segN]
  simp

theorem segs_nil (C : Cfg) : segs C [] = [] := by
  rw [segs_eq, runesOf_nil, segN]; simp

theorem segs_lineText {C : Cfg} (l : List Moji) (hb : ∀ x ∈ l, Built C x)
    (ho : ∀ x ∈ l, ¬ Orphan C x) : segs C (lineText l) = l := by
  cases l with
  | nil => exact segs_nil C
  | cons m l => exact segs_lineText' m l hb (fun x hx => ho x (by simp [hx]))

theorem Built.write_ne_nil {C : Cfg} {m : Moji} (h : Built C m) : m.write ≠ [] := by
  induction h with
  | base h => rw [Moji.norm_write, rune2moji_write]; exact encodeRune_ne_nil _
  | zwj _ _ _ ih => simp [Moji.write, ih]
  | vari _ _ _ _ ih => simp [Moji.write, ih]
  | modi _ _ _ _ _ ih => simp [Moji.write, ih]

theorem Built.norm {C : Cfg} {m : Moji} (h : Built C m) : m.norm = m := by
  induction h with
  | base h => simp
  | zwj _ _ _ ih => simp [Moji.norm, ih]
  | vari _ _ _ _ ih => simp [Moji.norm, ih]
  | modi _ _ _ _ _ ih => simp [Moji.norm, ih]

theorem Built.decode {C : Cfg} {m : Moji} (h : Built C m) (t : Bytes) :
    (decodeRune (m.write ++ t)).1 = firstRune m := by
  induction h generalizing t with
  | @base r h =>
    rw [Moji.norm_write, rune2moji_write, decode_encode h, firstRune_base]
  | zwj _ _ _ ih => simp only [Moji.write, firstRune, List.append_assoc]; exact ih _
  | vari _ _ _ _ ih => simp only [Moji.write, firstRune, List.append_assoc]; exact ih _
  | modi _ _ _ _ _ ih => simp only [Moji.write, firstRune, List.append_assoc]; exact ih _

theorem isJoiner_iff {C : Cfg} {r : Rune} : isJoiner C r = true ↔ Joins C r := by
  unfold isJoiner Joins isVariationSelectorLike isEmojiModifier
  rw [Bool.or_eq_true, Bool.or_eq_true, isZeroWidthJoin_iff]
  simp [or_assoc]

theorem orphan_iff {C : Cfg} {m : Moji} (h : Built C m) :
    Orphan C m ↔ Joins C (decodeRune m.write).1 := by
  have := h.decode []
  rw [List.append_nil] at this
  rw [this, Orphan, isJoiner_iff]

/-- Units are determined by their texts. -/
theorem Built.write_inj {C : Cfg} {a b : Moji} (ha : Built C a) (hb : Built C b)
    (h : a.write = b.write) : a = b := by
  have h1 := segs_lineText' a [] (by simpa using ha) (by simp)
  have h2 := segs_lineText' b [] (by simpa using hb) (by simp)
  have e : lineText [a] = lineText [b] := by simp [lineText, h]
  rw [e, h2] at h1
  simpa using h1.symm

end Readline
