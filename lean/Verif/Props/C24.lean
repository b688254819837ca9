import Verif.Model.Color
/-!
# C24: colour sequences round-trip

At most seven parameters of one byte each, the seventh (if any) below 128: `WriteTo` prints
exactly the parameters given to `Add`, `SGR1`..`SGR4` and `Chain`, in order.
-/
namespace Readline

/-- Decimal number as ASCII bytes, by Lean's own formatter. -/
def Spec.decimal (n : Nat) : Bytes := (toString n).toUTF8.toList

/-- `ESC [ p1 ; p2 ; … m`. -/
def Spec.sgr (ps : List Nat) : Bytes :=
  [0x1B, 0x5B] ++ [0x3B].intercalate (ps.map Spec.decimal) ++ [0x6D]

/-- Parameter lists a `ColorSequence` can hold. -/
def Spec.SgrParams (ps : List Nat) : Prop :=
  ps.length ≤ 7 ∧ (∀ p ∈ ps, p < 256) ∧ (∀ p, ps[6]? = some p → p < 128)

/-- The sequence built with `Add` from nothing. -/
def colorOf (ps : List Nat) : Color := ps.foldl (fun c (p : Nat) => Color.add c (p : Int)) 0#64

/-- The bytes above the counter. -/
def payload : List Nat → Nat
  | [] => 0
  | p :: ps => 256 * (p + payload ps)

theorem payload_lt (ps : List Nat) (h : ∀ p ∈ ps, p < 256) : payload ps + 256 ≤ 256 ^ (ps.length + 1) := by
  induction ps with
  | nil => simp [payload]
  | cons p ps ih =>
    have hp := h p (by simp)
    have ih := ih (fun q hq => h q (by simp [hq]))
    simp only [payload, List.length_cons]
    have : 256 ^ (ps.length + 1 + 1) = 256 * 256 ^ (ps.length + 1) := by rw [Nat.pow_succ, Nat.mul_comm]
    omega

theorem payload_append (ps : List Nat) (v : Nat) :
    payload (ps ++ [v]) = payload ps + v * 256 ^ (ps.length + 1) := by
  induction ps with
  | nil => simp [payload]; omega
  | cons p ps ih =>
    simp only [payload, List.cons_append, List.length_cons]
    rw [ih]
    have : 256 ^ (ps.length + 1 + 1) = 256 ^ (ps.length + 1) * 256 := Nat.pow_succ ..
    rw [this]
    have : v * (256 ^ (ps.length + 1) * 256) = 256 * (v * 256 ^ (ps.length + 1)) := by
      rw [← Nat.mul_assoc, Nat.mul_comm]
    omega

theorem payload_mod (ps : List Nat) : payload ps % 256 = 0 := by
  cases ps <;> simp [payload]

theorem mask_toNat (c : Color) : (c &&& colorMask).toNat = c.toNat % 256 := by
  rw [BitVec.toNat_and]
  exact Nat.and_two_pow_sub_one_eq_mod c.toNat 8

theorem notMask_toNat (c : Color) : (c &&& ~~~colorMask).toNat = 256 * (c.toNat / 256) := by
  have : c &&& ~~~colorMask = (c >>> 8) <<< 8 := by
    apply BitVec.eq_of_getLsbD_eq
    intro i hi
    have hm : ∀ i : Fin 64, (~~~colorMask).getLsbD i.val = !decide (i.val < 8) := by decide
    have := hm ⟨i, hi⟩
    simp only at this
    simp only [BitVec.getLsbD_and, BitVec.getLsbD_shiftLeft, BitVec.getLsbD_ushiftRight]
    rw [this]
    by_cases h8 : i < 8
    · simp [h8]
    · have : 8 + (i - 8) = i := by omega
      simp [h8, hi, this]
  rw [this, BitVec.toNat_shiftLeft, BitVec.toNat_ushiftRight, Nat.shiftLeft_eq, Nat.shiftRight_eq_div_pow]
  have := c.isLt
  omega

/-- `Add` appends one byte. -/
theorem add_toNat (c : Color) (n v : Nat) (hn : c.toNat % 256 = n) (hn6 : n ≤ 6)
    (hc : c.toNat < 256 ^ (n + 1)) (hv : v < 256) :
    (Color.add c (v : Int)).toNat = c.toNat + 1 + v * 256 ^ (n + 1) := by
  unfold Color.add
  have h1 : ((c &&& colorMask) + 1#64).toNat = n + 1 := by
    rw [BitVec.toNat_add, mask_toNat, hn]
    simp; omega
  have h2 : (((c &&& colorMask) + 1#64) * 8#64).toNat = 8 * (n + 1) := by
    rw [BitVec.toNat_mul, h1]
    simp; omega
  simp only [h2]
  have h3 : ((c &&& ~~~colorMask) ||| ((c &&& colorMask) + 1#64)).toNat = c.toNat + 1 := by
    rw [BitVec.toNat_or, notMask_toNat, h1]
    have := Nat.two_pow_add_eq_or_of_lt (i := 8) (b := n + 1) (by omega) (c.toNat / 256)
    simp only [Nat.reducePow] at this
    rw [← this]
    omega
  rw [BitVec.toNat_or, h3, BitVec.toNat_shiftLeft]
  have hv64 : (colorOfInt (v : Int)).toNat = v := by
    unfold colorOfInt
    rw [BitVec.ofInt_natCast, BitVec.toNat_ofNat]
    omega
  rw [hv64, Nat.shiftLeft_eq]
  have hp : (2 : Nat) ^ (8 * (n + 1)) = 256 ^ (n + 1) := by rw [Nat.pow_mul]
  have hle : (256 : Nat) ^ (n + 1) ≤ 256 ^ 7 := Nat.pow_le_pow_right (by omega) (by omega)
  have hlt : v * 256 ^ (n + 1) < 2 ^ 64 := by
    calc v * 256 ^ (n + 1) ≤ 255 * 256 ^ 7 := Nat.mul_le_mul (by omega) hle
      _ < 2 ^ 64 := by decide
  rw [hp, Nat.mod_eq_of_lt hlt]
  have hlt2 : c.toNat + 1 < 2 ^ (8 * (n + 1)) := by
    rw [hp]
    have hmod : 256 ^ (n + 1) % 256 = 0 := by rw [Nat.pow_succ]; simp
    omega
  have := Nat.two_pow_add_eq_or_of_lt hlt2 v
  rw [hp] at this
  rw [Nat.or_comm, Nat.mul_comm v, ← this]
  omega

theorem colorOf_append (ps : List Nat) (v : Nat) : colorOf (ps ++ [v]) = Color.add (colorOf ps) (v : Int) := by
  simp [colorOf]

theorem colorOf_toNat (ps : List Nat) (hl : ps.length ≤ 7) (h : ∀ p ∈ ps, p < 256) :
    (colorOf ps).toNat = ps.length + payload ps := by
  generalize hn : ps.length = n at hl
  induction n generalizing ps with
  | zero =>
    obtain rfl := List.length_eq_zero_iff.mp hn
    rfl
  | succ n ih =>
    have hne : ps ≠ [] := by intro h; subst h; simp at hn
    obtain ⟨qs, v, rfl⟩ : ∃ qs v, ps = qs ++ [v] := ⟨ps.dropLast, ps.getLast hne, (List.dropLast_concat_getLast hne).symm⟩
    simp only [List.length_append, List.length_singleton, Nat.add_right_cancel_iff] at hn
    have hq : ∀ p ∈ qs, p < 256 := fun p hp => h p (by simp [hp])
    have ih := ih qs hq hn (by omega)
    have hpl := payload_lt qs hq
    have hpm := payload_mod qs
    rw [colorOf_append, add_toNat (colorOf qs) n v (by rw [ih]; omega) (by omega)
      (by rw [ih, ← hn]; omega) (h v (by simp)), ih, payload_append, hn]
    omega

theorem sshift_toNat (c : Color) (h : c.toNat < 2 ^ 63) : (c.sshiftRight 8).toNat = c.toNat / 256 := by
  have hm : c.msb = false := by rw [BitVec.msb_eq_false_iff_two_mul_lt]; omega
  rw [BitVec.sshiftRight_eq_of_msb_false hm, BitVec.toNat_ushiftRight, Nat.shiftRight_eq_div_pow]

theorem paramsLoop_eq (ps : List Nat) (h : ∀ p ∈ ps, p < 256) (c : Color) (q : Nat) (hq : q < 256)
    (hc : c.toNat = q + payload ps) (hlt : c.toNat < 2 ^ 63) : Color.paramsLoop ps.length c = ps := by
  induction ps generalizing c q with
  | nil => rfl
  | cons p ps ih =>
    have hp := h p (by simp)
    have hs : (c.sshiftRight 8).toNat = p + payload ps := by
      rw [sshift_toNat c hlt, hc, payload]; omega
    rw [List.length_cons, Color.paramsLoop]
    simp only [mask_toNat, hs]
    have := payload_mod ps
    rw [ih (fun x hx => h x (by simp [hx])) _ p hp hs (by rw [hs]; rw [hc, payload] at hlt; omega)]
    congr 1
    omega

theorem sgrParams_lt (ps : List Nat) (h : Spec.SgrParams ps) : ps.length + payload ps < 2 ^ 63 := by
  obtain ⟨h1, h2, h3⟩ := h
  by_cases h7 : ps.length = 7
  · obtain ⟨a, b, c, d, e, f, g, rfl⟩ : ∃ a b c d e f g, ps = [a, b, c, d, e, f, g] := by
      match ps, h7 with
      | [a, b, c, d, e, f, g], _ => exact ⟨a, b, c, d, e, f, g, rfl⟩
    have hg := h3 g rfl
    have := h2 a (by simp); have := h2 b (by simp); have := h2 c (by simp); have := h2 d (by simp)
    have := h2 e (by simp); have := h2 f (by simp)
    simp only [payload, List.length_cons, List.length_nil]
    omega
  · have := payload_lt ps h2
    have hle : (256 : Nat) ^ (ps.length + 1) ≤ 256 ^ 7 := Nat.pow_le_pow_right (by omega) (by omega)
    have : (256 : Nat) ^ 7 < 2 ^ 63 := by decide
    omega

theorem decNat_eq (n : Nat) (h : n < 256) : decNat n = Spec.decimal n := by
  have : ∀ n : Fin 256, decNat n.val = Spec.decimal n.val := by decide +kernel
  exact this ⟨n, h⟩

theorem joinSemi_eq (ps : List Nat) (h : ∀ p ∈ ps, p < 256) :
    joinSemi ps = [0x3B].intercalate (ps.map Spec.decimal) := by
  induction ps with
  | nil => rfl
  | cons p ps ih =>
    have hp := decNat_eq p (h p (by simp))
    have ih := ih (fun q hq => h q (by simp [hq]))
    cases ps with
    | nil => simp [joinSemi, hp, List.intercalate]
    | cons q ps =>
      rw [joinSemi, ih, hp]
      · simp [List.intercalate]
      · simp

theorem write_of_toNat (c : Color) (ps : List Nat) (hne : ps ≠ []) (h : Spec.SgrParams ps)
    (hc : c.toNat = ps.length + payload ps) : c.write = Spec.sgr ps := by
  have hlt := sgrParams_lt ps h
  rw [← hc] at hlt
  unfold Color.write
  have hi : c.toInt = c.toNat := BitVec.toInt_eq_toNat_of_lt (by omega)
  have hpos : 0 < ps.length := List.length_pos_iff.mpr hne
  rw [if_neg (by rw [hi]; omega)]
  have hcount : (c &&& colorMask).toNat = ps.length := by
    rw [mask_toNat, hc]
    have := payload_mod ps
    have := h.1
    omega
  have hp : c.params = ps := by
    unfold Color.params
    rw [hcount, Nat.max_eq_right (by omega)]
    exact paramsLoop_eq ps h.2.1 c ps.length (by have := h.1; omega) hc hlt
  rw [hp, joinSemi_eq ps h.2.1]
  rfl

/-- `Add` after `Add`: all parameters are printed, in order. -/
theorem C24_add (ps : List Nat) (hne : ps ≠ []) (h : Spec.SgrParams ps) :
    (colorOf ps).write = Spec.sgr ps :=
  write_of_toNat _ ps hne h (colorOf_toNat ps h.1 h.2.1)

/-- No parameter: nothing is printed. -/
theorem C24_empty : (colorOf []).write = [] := by decide

theorem color_ext {c d : Color} (h : c.toNat = d.toNat) : c = d := BitVec.eq_of_toNat_eq h

theorem chainLoop_eq (qs ps : List Nat) (value : Color) (q : Nat) (hl : ps.length + qs.length ≤ 7)
    (hq : ∀ p ∈ qs, p < 256) (hq0 : q < 256)
    (hv : value.toNat = q + payload qs) (hlt : value.toNat < 2 ^ 63) :
    Color.chainLoop qs.length (colorOf ps) value = colorOf (ps ++ qs) := by
  induction qs generalizing ps value q with
  | nil => simp [Color.chainLoop]
  | cons a qs ih =>
    have ha := hq a (by simp)
    have hs : (value.sshiftRight 8).toNat = a + payload qs := by
      rw [sshift_toNat value hlt, hv, payload]; omega
    rw [List.length_cons, Color.chainLoop]
    simp only [mask_toNat, hs]
    have := payload_mod qs
    have hmod : (a + payload qs) % 256 = a := by omega
    rw [hmod, ← colorOf_append]
    rw [ih (ps ++ [a]) _ a (by simp only [List.length_append, List.length_cons, List.length_nil] at hl ⊢; omega)
      (fun x hx => hq x (by simp [hx])) ha hs
      (by rw [hs]; rw [hv, payload] at hlt; omega)]
    simp

/-- `Chain` is concatenation of parameter lists. -/
theorem C24_chain (ps qs : List Nat) (h : Spec.SgrParams (ps ++ qs)) :
    Color.chain (colorOf ps) (colorOf qs) = colorOf (ps ++ qs) := by
  have hq : ∀ p ∈ qs, p < 256 := fun p hp => h.2.1 p (by simp [hp])
  have hl : ps.length + qs.length ≤ 7 := by simpa using h.1
  have hqs : Spec.SgrParams qs := by
    refine ⟨by omega, hq, ?_⟩
    intro p hp
    have h7 : qs.length = 7 := by
      have := (List.getElem?_eq_some_iff.mp hp).1
      omega
    have : ps = [] := List.length_eq_zero_iff.mp (by omega)
    subst this
    exact h.2.2 p (by simpa using hp)
  have ht := colorOf_toNat qs (by omega) hq
  unfold Color.chain
  have hcount : (colorOf qs &&& colorMask).toNat = qs.length := by
    rw [mask_toNat, ht]
    have := payload_mod qs
    omega
  rw [hcount]
  exact chainLoop_eq qs ps _ qs.length hl hq (by omega) ht (by rw [ht]; exact sgrParams_lt qs hqs)

theorem colorOfInt_toNat (v : Nat) (h : v < 256) : (colorOfInt (v : Int)).toNat = v := by
  unfold colorOfInt
  rw [BitVec.ofInt_natCast, BitVec.toNat_ofNat]; omega

/-- One more byte above. -/
theorem or_byte (c : Color) (k v : Nat) (hk : k ≤ 6) (hc : c.toNat < 256 ^ (k + 1)) (hv : v < 256) :
    (c ||| (colorOfInt (v : Int) <<< (8 * (k + 1)))).toNat = c.toNat + v * 256 ^ (k + 1) := by
  rw [BitVec.toNat_or, BitVec.toNat_shiftLeft, colorOfInt_toNat v hv, Nat.shiftLeft_eq]
  have hp : (2 : Nat) ^ (8 * (k + 1)) = 256 ^ (k + 1) := by rw [Nat.pow_mul]
  have hle : (256 : Nat) ^ (k + 1) ≤ 256 ^ 7 := Nat.pow_le_pow_right (by omega) (by omega)
  have hlt : v * 256 ^ (k + 1) < 2 ^ 64 := by
    calc v * 256 ^ (k + 1) ≤ 255 * 256 ^ 7 := Nat.mul_le_mul (by omega) hle
      _ < 2 ^ 64 := by decide
  rw [hp, Nat.mod_eq_of_lt hlt]
  have := Nat.two_pow_add_eq_or_of_lt (i := 8 * (k + 1)) (b := c.toNat) (by rw [hp]; exact hc) v
  rw [hp] at this
  rw [Nat.or_comm, Nat.mul_comm v, ← this, Nat.add_comm]

theorem sgr1_eq (a : Nat) (ha : a < 256) : sgr1 a = colorOf [a] := by
  apply color_ext
  rw [colorOf_toNat [a] (by simp) (by simpa using ha)]
  unfold sgr1
  rw [show (8 : Nat) = 8 * (0 + 1) from rfl, or_byte _ 0 a (by omega) (by decide) ha]
  simp [payload]; omega

theorem sgr2_eq (a b : Nat) (ha : a < 256) (hb : b < 256) : sgr2 a b = colorOf [a, b] := by
  apply color_ext
  rw [colorOf_toNat [a, b] (by simp) (by simp [ha, hb])]
  unfold sgr2
  have h1 := or_byte 2#64 0 a (by omega) (by decide) ha
  simp only [Nat.reduceAdd, Nat.reduceMul, Nat.reducePow, BitVec.toNat_ofNat, Nat.reduceMod] at h1
  have h2 := or_byte _ 1 b (by omega) (by rw [h1]; omega) hb
  simp only [Nat.reduceAdd, Nat.reduceMul, Nat.reducePow] at h2
  rw [h2, h1]
  simp [payload]; omega

theorem sgr3_eq (a b c : Nat) (ha : a < 256) (hb : b < 256) (hc : c < 256) :
    sgr3 a b c = colorOf [a, b, c] := by
  apply color_ext
  rw [colorOf_toNat [a, b, c] (by simp) (by simp [ha, hb, hc])]
  unfold sgr3
  have h1 := or_byte 3#64 0 a (by omega) (by decide) ha
  simp only [Nat.reduceAdd, Nat.reduceMul, Nat.reducePow, BitVec.toNat_ofNat, Nat.reduceMod] at h1
  have h2 := or_byte _ 1 b (by omega) (by rw [h1]; omega) hb
  simp only [Nat.reduceAdd, Nat.reduceMul, Nat.reducePow] at h2
  have h3 := or_byte _ 2 c (by omega) (by rw [h2, h1]; omega) hc
  simp only [Nat.reduceAdd, Nat.reduceMul, Nat.reducePow] at h3
  rw [h3, h2, h1]
  simp [payload]; omega

theorem sgr4_eq (a b c d : Nat) (ha : a < 256) (hb : b < 256) (hc : c < 256) (hd : d < 256) :
    sgr4 a b c d = colorOf [a, b, c, d] := by
  apply color_ext
  rw [colorOf_toNat [a, b, c, d] (by simp) (by simp [ha, hb, hc, hd])]
  unfold sgr4
  have h1 := or_byte 4#64 0 a (by omega) (by decide) ha
  simp only [Nat.reduceAdd, Nat.reduceMul, Nat.reducePow, BitVec.toNat_ofNat, Nat.reduceMod] at h1
  have h2 := or_byte _ 1 b (by omega) (by rw [h1]; omega) hb
  simp only [Nat.reduceAdd, Nat.reduceMul, Nat.reducePow] at h2
  have h3 := or_byte _ 2 c (by omega) (by rw [h2, h1]; omega) hc
  simp only [Nat.reduceAdd, Nat.reduceMul, Nat.reducePow] at h3
  have h4 := or_byte _ 3 d (by omega) (by rw [h3, h2, h1]; omega) hd
  simp only [Nat.reduceAdd, Nat.reduceMul, Nat.reducePow] at h4
  rw [h4, h3, h2, h1]
  simp [payload]; omega

/-- `SGR1` .. `SGR4` print their arguments. -/
theorem C24_sgr (a b c d : Nat) (ha : a < 256) (hb : b < 256) (hc : c < 256) (hd : d < 256) :
    (sgr1 a).write = Spec.sgr [a] ∧ (sgr2 a b).write = Spec.sgr [a, b] ∧
    (sgr3 a b c).write = Spec.sgr [a, b, c] ∧ (sgr4 a b c d).write = Spec.sgr [a, b, c, d] := by
  rw [sgr1_eq a ha, sgr2_eq a b ha hb, sgr3_eq a b c ha hb hc, sgr4_eq a b c d ha hb hc hd]
  refine ⟨C24_add _ (by simp) ?_, C24_add _ (by simp) ?_, C24_add _ (by simp) ?_, C24_add _ (by simp) ?_⟩ <;>
  exact ⟨by simp, by simp [*], by simp⟩

/-- Chaining two printable sequences prints the parameters of both. -/
theorem C24_chain_write (ps qs : List Nat) (hne : ps ++ qs ≠ []) (h : Spec.SgrParams (ps ++ qs)) :
    (Color.chain (colorOf ps) (colorOf qs)).write = Spec.sgr (ps ++ qs) := by
  rw [C24_chain ps qs h]; exact C24_add _ hne h

/-- The predefined colours are such sequences. -/
theorem C24_predefined : colorReset = colorOf [0] ∧
    (∀ i : Fin 10, fgColor i = colorOf [30 + i, 49, 1]) ∧
    (∀ i : Fin 10, darkFgColor i = colorOf [30 + i, 22, 49]) := by decide +kernel

/-- Why the seventh parameter must be below 128: the word becomes negative and `WriteTo`
prints nothing. -/
theorem C24_seventh : (colorOf [1, 2, 3, 4, 5, 6, 200]).write = [] := by decide +kernel

/-- Non-vacuity. -/
example : Spec.SgrParams [38, 5, 208, 1] ∧
    (Color.chain (sgr3 38 5 208) (sgr1 1)).write = Spec.sgr [38, 5, 208, 1] := by
  constructor
  · refine ⟨by simp, by simp, by simp⟩
  · have h1 := sgr3_eq 38 5 208 (by omega) (by omega) (by omega)
    have h2 := sgr1_eq 1 (by omega)
    have := C24_chain_write [38, 5, 208] [1] (by simp) ⟨by simp, by simp, by simp⟩
    rw [← h1, ← h2] at this
    exact this
example : Spec.sgr [1, 31] = [0x1B, 0x5B, 0x31, 0x3B, 0x33, 0x31, 0x6D] := by decide +kernel

end Readline
