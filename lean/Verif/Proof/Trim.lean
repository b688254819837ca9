import Verif.Model.Trim
import Verif.Spec.Trim
import Verif.Proof.Word
import Verif.Proof.Reads
import Verif.Props.C25
/-!
# Taking the blanks off
-/
namespace Readline
open Spec

theorem utf8_one (c : Char) : utf8 [c] = encodeRune c.toNat := by
  rw [encodeRune_char]; simp [utf8]

theorem utf8_more (c : Char) (cs : List Char) : utf8 (c :: cs) = utf8 [c] ++ utf8 cs := by simp [utf8]

theorem utf8_one_ne (c : Char) : utf8 [c] ≠ [] := by rw [utf8_one]; exact encodeRune_ne_nil _

theorem space_char {r : Rune} (hs : isScalar r = true) (h : isSpaceRune r = true) : ∃ c : Char, White c ∧ encodeRune r = utf8 [c] := by
  obtain ⟨c, rfl⟩ := exists_char_of_isScalar hs
  exact ⟨c, (isSpaceRune_iff c).mp h, (utf8_one c).symm⟩

/-- A blank that is decoded in front is there. -/
theorem front_blank {t : Bytes} (h : isSpaceRune (decodeRune t).1 = true) :
    ∃ c, White c ∧ t = utf8 [c] ++ t.drop (decodeRune t).2 := by
  cases t with
  | nil => exact absurd h (by decide)
  | cons b t =>
    rcases decode_prefix b t with e | ⟨x, hx⟩
    · rw [e] at h; exact absurd h (by decide)
    · obtain ⟨c, hc, hu⟩ := space_char (decode_isScalar (b :: t)) h
      refine ⟨c, hc, ?_⟩
      have hd := decode_encode (decode_isScalar (b :: t)) x
      generalize (decodeRune (b :: t)).1 = r at *
      rw [← hx, hd]
      dsimp only
      rw [← hu, List.drop_left' rfl]

theorem decode_front (c : Char) (t : Bytes) : decodeRune (utf8 [c] ++ t) = (c.toNat, (utf8 [c]).length) := by
  rw [utf8_one]; exact decode_encode (char_isScalar c) t

theorem decode_behind (c : Char) (t : Bytes) : decodeLastRune (t ++ utf8 [c]) = (c.toNat, (utf8 [c]).length) := by
  rw [utf8_one]; exact decodeLastRune_append t (char_isScalar c)

/-- A blank that is decoded behind is there. -/
theorem behind_blank {t : Bytes} (h : isSpaceRune (decodeLastRune t).1 = true) :
    ∃ c, White c ∧ t = t.take (t.length - (decodeLastRune t).2) ++ utf8 [c] := by
  by_cases h0 : t = []
  · subst h0; exact absurd h (by decide)
  have key : ∃ c, White c ∧ utf8 [c] <:+ t := by
    unfold decodeLastRune at h
    rw [if_neg h0] at h
    dsimp only at h
    split at h
    · rename_i hb
      rcases List.eq_nil_or_concat t with rfl | ⟨t', x, rfl⟩
      · exact absurd rfl h0
      rw [List.concat_eq_append] at *
      have hx : (t' ++ [x]).getD ((t' ++ [x]).length - 1) 0 = x := by simp [List.getD]
      rw [hx] at h hb
      dsimp only at h
      obtain ⟨c, hc, hu⟩ := space_char (isScalar_iff.mpr (Or.inl (by omega))) h
      refine ⟨c, hc, ?_⟩
      rw [← hu]
      unfold encodeRune
      rw [if_pos hb]
      exact ⟨t', by simp⟩
    · split at h
      · exact absurd h (by decide)
      · rename_i hl
        obtain ⟨c, hc, hu⟩ := front_blank h
        refine ⟨c, hc, ?_⟩
        have hl' : lastStart t (t.length - 1) 3 + (decodeRune (t.drop (lastStart t (t.length - 1) 3))).2 = t.length := by omega
        have e : (t.drop (lastStart t (t.length - 1) 3)).drop (decodeRune (t.drop (lastStart t (t.length - 1) 3))).2 = [] := by
          rw [List.drop_drop, hl', List.drop_length]
        rw [e, List.append_nil] at hu
        rw [← hu]
        exact List.drop_suffix _ _
  obtain ⟨c, hc, x, hx⟩ := key
  refine ⟨c, hc, ?_⟩
  rw [← hx, decode_behind]
  simp

/-! ## In front -/

theorem trimLeft_ok (n : Nat) (t : Bytes) (hn : t.length ≤ n) :
    (∃ a : List Char, (∀ c ∈ a, White c) ∧ t = utf8 a ++ trimLeftLoop n t) ∧ ∀ c, White c → ¬ utf8 [c] <+: trimLeftLoop n t := by
  induction n generalizing t with
  | zero =>
    have : t = [] := List.length_eq_zero_iff.mp (by omega)
    subst this
    refine ⟨⟨[], by simp, rfl⟩, fun c _ hp => utf8_one_ne c ?_⟩
    exact List.prefix_nil.mp hp
  | succ n ih =>
    unfold trimLeftLoop
    dsimp only
    by_cases h : isSpaceRune (decodeRune t).1 = true
    · rw [if_pos h]
      obtain ⟨c, hc, hu⟩ := front_blank h
      have hl := congrArg List.length hu
      rw [List.length_append] at hl
      have hpos : 0 < (utf8 [c]).length := List.length_pos_iff.mpr (utf8_one_ne c)
      obtain ⟨⟨a, ha, e⟩, h2⟩ := ih (t.drop (decodeRune t).2) (by omega)
      refine ⟨⟨c :: a, ?_, ?_⟩, h2⟩
      · intro x hx
        rcases List.mem_cons.mp hx with rfl | hx
        · exact hc
        · exact ha x hx
      · rw [utf8_more, List.append_assoc, ← e]
        exact hu
    · rw [if_neg h]
      refine ⟨⟨[], by simp, rfl⟩, fun c hc ⟨x, hx⟩ => h ?_⟩
      rw [← hx, decode_front]
      exact (isSpaceRune_iff c).mpr hc

theorem trimLeft_eq {u : Bytes} (hu : ∀ c, White c → ¬ utf8 [c] <+: u) (a : List Char) (ha : ∀ c ∈ a, White c) (n : Nat)
    (hn : (utf8 a ++ u).length ≤ n) : trimLeftLoop n (utf8 a ++ u) = u := by
  induction a generalizing n with
  | nil =>
    have e : utf8 [] ++ u = u := rfl
    rw [e]
    cases n with
    | zero => rfl
    | succ n =>
      unfold trimLeftLoop
      dsimp only
      rw [if_neg]
      intro h
      obtain ⟨c, hc, hx⟩ := front_blank h
      exact hu c hc ⟨_, hx.symm⟩
  | cons c a ih =>
    rw [utf8_more, List.append_assoc] at hn ⊢
    have hpos : 0 < (utf8 [c]).length := List.length_pos_iff.mpr (utf8_one_ne c)
    cases n with
    | zero => rw [List.length_append] at hn; omega
    | succ n =>
      unfold trimLeftLoop
      dsimp only
      rw [decode_front, if_pos ((isSpaceRune_iff c).mpr (ha c (by simp)))]
      rw [List.drop_left']
      · rw [List.length_append] at hn
        exact ih (fun x hx => ha x (by simp [hx])) n (by omega)
      · rfl

/-! ## Behind -/

theorem trimRight_ok (n : Nat) (t : Bytes) (hn : t.length ≤ n) :
    (∃ z : List Char, (∀ c ∈ z, White c) ∧ t = trimRightLoop n t ++ utf8 z) ∧ ∀ c, White c → ¬ utf8 [c] <:+ trimRightLoop n t := by
  induction n generalizing t with
  | zero =>
    have : t = [] := List.length_eq_zero_iff.mp (by omega)
    subst this
    refine ⟨⟨[], by simp, rfl⟩, fun c _ hp => utf8_one_ne c ?_⟩
    exact List.suffix_nil.mp hp
  | succ n ih =>
    unfold trimRightLoop
    dsimp only
    by_cases h : isSpaceRune (decodeLastRune t).1 = true
    · rw [if_pos h]
      obtain ⟨c, hc, hu⟩ := behind_blank h
      have hl := congrArg List.length hu
      rw [List.length_append] at hl
      have hpos : 0 < (utf8 [c]).length := List.length_pos_iff.mpr (utf8_one_ne c)
      obtain ⟨⟨z, hz, e⟩, h2⟩ := ih (t.take (t.length - (decodeLastRune t).2)) (by omega)
      refine ⟨⟨z ++ [c], ?_, ?_⟩, h2⟩
      · intro x hx
        rcases List.mem_append.mp hx with hx | hx
        · exact hz x hx
        · rw [List.mem_singleton] at hx; subst hx; exact hc
      · have : utf8 (z ++ [c]) = utf8 z ++ utf8 [c] := by simp [utf8]
        rw [this, ← List.append_assoc, ← e]
        exact hu
    · rw [if_neg h]
      refine ⟨⟨[], by simp, by simp [utf8]⟩, fun c hc ⟨x, hx⟩ => h ?_⟩
      rw [← hx, decode_behind]
      exact (isSpaceRune_iff c).mpr hc

theorem trimRight_eq {u : Bytes} (hu : ∀ c, White c → ¬ utf8 [c] <:+ u) (z : List Char) (hz : ∀ c ∈ z, White c) (n : Nat)
    (hn : (u ++ utf8 z).length ≤ n) : trimRightLoop n (u ++ utf8 z) = u := by
  induction n generalizing z with
  | zero =>
    have : u ++ utf8 z = [] := List.length_eq_zero_iff.mp (by omega)
    have e := List.append_eq_nil_iff.mp this
    rw [this, e.1]; rfl
  | succ n ih =>
    rcases List.eq_nil_or_concat z with rfl | ⟨z', c, rfl⟩
    · have e : u ++ utf8 [] = u := by simp [utf8]
      rw [e]
      unfold trimRightLoop
      dsimp only
      rw [if_neg]
      intro h
      obtain ⟨c, hc, hx⟩ := behind_blank h
      exact hu c hc ⟨_, hx.symm⟩
    · rw [List.concat_eq_append] at *
      have e : u ++ utf8 (z' ++ [c]) = u ++ utf8 z' ++ utf8 [c] := by simp [utf8]
      rw [e] at hn ⊢
      have hpos : 0 < (utf8 [c]).length := List.length_pos_iff.mpr (utf8_one_ne c)
      unfold trimRightLoop
      dsimp only
      rw [decode_behind, if_pos ((isSpaceRune_iff c).mpr (hz c (by simp)))]
      dsimp only
      rw [List.length_append, Nat.add_sub_cancel, List.take_left']
      · rw [List.length_append] at hn
        exact ih z' (fun x hx => hz x (by simp [hx])) (by omega)
      · rfl

/-! ## At both ends -/

theorem byte_start {r : Rune} (h : isScalar r = true) {b : UInt8} {t : Bytes} (e : encodeRune r = b :: t) :
    runeStart b = true ∧ ∀ x ∈ t, runeStart x = false := by
  obtain ⟨b', t', e', -, h1, h2, h3⟩ := encodeRune_shape r h
  obtain ⟨rfl, rfl⟩ := List.cons.inj (e.symm.trans e')
  refine ⟨?_, h1⟩
  by_cases ht : t = []
  · have := (h2 ht).1
    unfold runeStart inRange
    simp
    omega
  · exact (h3 ht).1

/-- A character in front of a text that goes on with whole characters is in front of the text or is not cut by its end. -/
theorem front_inside {c : Char} {u : Bytes} {z : List Char} (hu : u ≠ []) (h : utf8 [c] <+: u ++ utf8 z) : utf8 [c] <+: u := by
  rcases Nat.le_total (utf8 [c]).length u.length with hl | hl
  · exact List.prefix_of_prefix_length_le h (List.prefix_append _ _) hl
  · obtain ⟨v, hv⟩ := List.prefix_of_prefix_length_le (List.prefix_append u (utf8 z)) h hl
    cases v with
    | nil => rw [List.append_nil] at hv; rw [hv]; exact List.prefix_rfl
    | cons x v =>
      exfalso
      rw [← hv] at h
      have hp : x :: v <+: utf8 z := (List.prefix_append_right_inj u).mp h
      cases z with
      | nil => exact absurd (List.prefix_nil.mp hp) (by simp)
      | cons d z =>
        obtain ⟨y, us, rfl⟩ := List.exists_cons_of_ne_nil hu
        have h1 : runeStart x = false := (byte_start (char_isScalar c) ((utf8_one c).symm.trans hv.symm)).2 x (by simp)
        rw [utf8_more, utf8_one] at hp
        cases he : encodeRune d.toNat with
        | nil => exact encodeRune_ne_nil _ he
        | cons b t =>
          rw [he, List.cons_append] at hp
          have hb : x = b := (List.cons_prefix_cons.mp hp).1
          have h2 := (byte_start (char_isScalar d) he).1
          rw [hb, h2] at h1
          cases h1

/-- What `strings.TrimSpace` gives. -/
theorem trimSpace_ok (t : Bytes) : Stripped t (trimSpace t) := by
  unfold trimSpace
  dsimp only
  obtain ⟨⟨a, ha, e⟩, h1⟩ := trimLeft_ok t.length t (Nat.le_refl _)
  generalize trimLeftLoop t.length t = u at *
  obtain ⟨⟨z, hz, e'⟩, h2⟩ := trimRight_ok u.length u (Nat.le_refl _)
  generalize trimRightLoop u.length u = v at *
  refine ⟨⟨a, z, ha, hz, ?_⟩, fun c hc => ⟨fun hp => h1 c hc ?_, h2 c hc⟩⟩
  · rw [e, e', List.append_assoc]
  · rw [e']
    exact hp.trans (List.prefix_append _ _)

/-- Nothing else is the text without the blanks at its ends. -/
theorem stripped_eq {t u : Bytes} (h : Stripped t u) : trimSpace t = u := by
  obtain ⟨⟨a, z, ha, hz, rfl⟩, h2⟩ := h
  unfold trimSpace
  dsimp only
  by_cases hu : u = []
  · subst hu
    have e : utf8 a ++ [] ++ utf8 z = utf8 (a ++ z) ++ [] := by simp [utf8]
    rw [e, trimLeft_eq (u := []) (fun c _ hp => utf8_one_ne c (List.prefix_nil.mp hp)) (a ++ z) ?_ _ (Nat.le_refl _)]
    · rfl
    · intro c hc
      rcases List.mem_append.mp hc with hc | hc
      · exact ha c hc
      · exact hz c hc
  · rw [List.append_assoc, trimLeft_eq (fun c hc hp => (h2 c hc).1 (front_inside hu hp)) a ha _ (Nat.le_refl _)]
    exact trimRight_eq (fun c hc => (h2 c hc).2) z hz _ (Nat.le_refl _)

theorem stripped_unique {t u v : Bytes} (h : Stripped t u) (h' : Stripped t v) : u = v :=
  (stripped_eq h).symm.trans (stripped_eq h')

end Readline
