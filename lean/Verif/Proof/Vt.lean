import Verif.Spec.Seen
import Verif.Proof.Plain
/-!
# Bytes on a terminal and pieces of output on a row

A terminal that receives the bytes of some output shows what `Spec.Row` shows.
-/
namespace Readline
open Spec

variable {C : Cfg} {adv : Rune → Int}

/-- The terminal receives characters. -/
def Spec.Vt.feed (adv : Rune → Int) (v : Vt) (rs : List Rune) : Vt := rs.foldl (Vt.receive adv) v

theorem feed_append (v : Vt) (a b : List Rune) : v.feed adv (a ++ b) = (v.feed adv a).feed adv b := by
  simp [Vt.feed]

theorem feed_nil (v : Vt) : v.feed adv [] = v := rfl

theorem feed_cons (v : Vt) (r : Rune) (rs : List Rune) : v.feed adv (r :: rs) = (v.receive adv r).feed adv rs := rfl

/-! ## Decoding -/

/-- The bytes are whole characters. -/
def Reads (bs : Bytes) (rs : List Rune) : Prop := ∀ t, runesOf (bs ++ t) = rs ++ runesOf t

theorem Reads.nil : Reads [] [] := fun _ => rfl

theorem Reads.append {a b : Bytes} {x y : List Rune} (h1 : Reads a x) (h2 : Reads b y) : Reads (a ++ b) (x ++ y) := by
  intro t
  rw [List.append_assoc, h1, h2, List.append_assoc]

theorem Reads.rune {r : Rune} (h : isScalar r = true) : Reads (encodeRune r) [r] :=
  fun t => runesOf_encode_append h t

theorem Reads.ascii {bs : Bytes} (h : ∀ b ∈ bs, b.toNat < 0x80) : Reads bs (bs.map UInt8.toNat) := by
  intro t
  induction bs with
  | nil => rfl
  | cons b bs ih =>
    have := runesOf_stop [] b (bs ++ t) (h b (by simp))
    rw [List.nil_append, runesOf_nil, List.nil_append] at this
    rw [List.cons_append, this, ih fun x hx => h x (by simp [hx])]
    rfl

theorem Reads.valid {bs : Bytes} (h : ValidUtf8 bs) : Reads bs (runesOf bs) := by
  intro t
  obtain ⟨rs, hrs, rfl⟩ := validUtf8_iff.mp h
  rw [runesOf_encodeRunes hrs]
  clear h
  induction rs with
  | nil => rfl
  | cons r rs ih =>
    rw [encodeRunes_cons, List.append_assoc, runesOf_encode_append (hrs r (by simp)), ih fun x hx => hrs x (by simp [hx])]
    rfl

theorem Reads.run {bs : Bytes} {rs : List Rune} (h : Reads bs rs) (v : Vt) (t : Bytes) :
    v.run adv (bs ++ t) = (v.feed adv rs).run adv t := by
  show (runesOf (bs ++ t)).foldl _ v = _
  rw [h, List.foldl_append]
  rfl

/-! ## Control sequences -/

theorem feed_csi {v : Vt} (hm : v.mode = .ground) {ps : List Rune} (hps : ∀ r ∈ ps, r < 0x40) {f : Rune}
    (h1 : 0x40 ≤ f) (h2 : f ≤ 0x7E) :
    v.feed adv ([0x1B, 0x5B] ++ ps ++ [f]) = v.control ps f := by
  have key : ∀ (ps qs : List Rune) (v : Vt), (∀ r ∈ ps, r < 0x40) →
      ({ v with mode := .csi qs } : Vt).feed adv ps = { v with mode := .csi (qs ++ ps) } := by
    intro ps
    induction ps with
    | nil => intro qs v _; rw [List.append_nil]; rfl
    | cons p ps ih =>
      intro qs v h
      rw [feed_cons]
      have : ({ v with mode := .csi qs } : Vt).receive adv p = { v with mode := .csi (qs ++ [p]) } := by
        unfold Vt.receive
        dsimp only
        rw [if_neg (by have := h p (by simp); omega)]
      rw [this, ih _ _ fun r hr => h r (by simp [hr]), List.append_assoc]
      rfl
  rw [feed_append, feed_append]
  have e1 : v.feed adv [0x1B, 0x5B] = { v with mode := .csi [] } := by
    rw [feed_cons, feed_cons, feed_nil]
    have : v.receive adv 0x1B = { v with mode := .escape } := by
      unfold Vt.receive
      rw [hm]
      rfl
    rw [this]
    rfl
  rw [e1, key ps [] v hps, feed_cons, feed_nil]
  unfold Vt.receive
  dsimp only
  rw [if_pos ⟨h1, h2⟩]
  rfl

/-- Decimal digits. -/
theorem decNat_digits (n : Nat) : ∀ b ∈ decNat n, 0x30 ≤ b.toNat ∧ b.toNat ≤ 0x39 := by
  induction n using decNat.induct with
  | case1 n h =>
    intro b hb
    rw [decNat, if_pos h] at hb
    simp only [List.mem_singleton] at hb
    rw [hb, UInt8.toNat_ofNat']
    omega
  | case2 n h ih =>
    intro b hb
    rw [decNat, if_neg h] at hb
    rcases List.mem_append.mp hb with hb | hb
    · exact ih b hb
    · simp only [List.mem_singleton] at hb
      rw [hb, UInt8.toNat_ofNat']
      omega

theorem decNat_value (n : Nat) :
    ((decNat n).map UInt8.toNat).foldl (fun n r => 10 * n + (r - 0x30)) 0 = n := by
  induction n using decNat.induct with
  | case1 n h =>
    rw [decNat, if_pos h]
    simp only [List.map_cons, List.map_nil, List.foldl_cons, List.foldl_nil]
    rw [UInt8.toNat_ofNat']
    omega
  | case2 n h ih =>
    rw [decNat, if_neg h, List.map_append, List.foldl_append, ih]
    simp only [List.map_cons, List.map_nil, List.foldl_cons, List.foldl_nil]
    rw [UInt8.toNat_ofNat']
    omega

theorem decNat_ne (n : Nat) : decNat n ≠ [] := by
  rw [decNat]
  split <;> simp

theorem param_decNat (n d : Nat) : Vt.param ((decNat n).map UInt8.toNat) 0 d = n := by
  have hd : ∀ r ∈ (decNat n).map UInt8.toNat, 0x30 ≤ r ∧ r ≤ 0x39 := by
    intro r hr
    obtain ⟨b, hb, rfl⟩ := List.mem_map.mp hr
    exact decNat_digits n b hb
  unfold Vt.param Vt.numbers
  rw [List.splitOn_eq_singleton (fun h => by have := hd _ h; omega)]
  rw [List.map_singleton]
  rw [if_pos ⟨by simpa using decNat_ne n, by
    rw [List.all_eq_true]
    intro r hr
    have := hd r hr
    simp [this.1, this.2]⟩]
  rw [decNat_value n]
  rfl

theorem joinSemi_params (ps : List Nat) : ∀ b ∈ joinSemi ps, 0x30 ≤ b.toNat ∧ b.toNat ≤ 0x3B := by
  induction ps using joinSemi.induct with
  | case1 => intro b hb; simp [joinSemi] at hb
  | case2 x =>
    intro b hb
    have := decNat_digits x b hb
    omega
  | case3 x xs hx ih =>
    intro b hb
    rw [joinSemi] at hb
    · rcases List.mem_append.mp hb with hb | hb
      · rcases List.mem_append.mp hb with hb | hb
        · have := decNat_digits x b hb
          omega
        · simp only [List.mem_singleton] at hb
          rw [hb]
          decide
      · exact ih b hb
    · exact hx

/-- The screen is the same. -/
structure Unmoved (v v' : Vt) : Prop where
  mode : v'.mode = .ground
  width : v'.width = v.width
  height : v'.height = v.height
  row : v'.row = v.row
  col : v'.col = v.col
  cells : v'.cells = v.cells

theorem Unmoved.trans {v v1 v2 : Vt} (h1 : Unmoved v v1) (h2 : Unmoved v1 v2) : Unmoved v v2 :=
  ⟨h2.mode, h2.width.trans h1.width, h2.height.trans h1.height, h2.row.trans h1.row, h2.col.trans h1.col, h2.cells.trans h1.cells⟩

theorem reads_csi {ps : Bytes} (hps : ∀ x ∈ ps, x.toNat < 0x40) {f : UInt8} (hf : f.toNat < 0x80) :
    Reads ([0x1B, 0x5B] ++ ps ++ [f]) ([0x1B, 0x5B] ++ ps.map UInt8.toNat ++ [f.toNat]) := by
  have := Reads.ascii (bs := [0x1B, 0x5B] ++ ps ++ [f]) (by
    intro b hb
    simp only [List.cons_append, List.nil_append, List.mem_cons, List.mem_append, List.not_mem_nil, or_false] at hb
    rcases hb with rfl | rfl | hb | rfl
    · decide
    · decide
    · have := hps b hb; omega
    · exact hf)
  simpa using this

theorem sgr_unmoved {b : Bytes} (h : Sgr b) : ∃ rs, Reads b rs ∧ ∀ v : Vt, v.mode = .ground → Unmoved v (v.feed adv rs) := by
  rcases h with rfl | ⟨ps, rfl, hps⟩
  · exact ⟨[], Reads.nil, fun v hm => ⟨hm, rfl, rfl, rfl, rfl, rfl⟩⟩
  · refine ⟨_, reads_csi (fun x hx => by have := hps x hx; omega) (by decide), fun v hm => ?_⟩
    rw [feed_csi hm (fun r hr => by
      obtain ⟨x, hx, rfl⟩ := List.mem_map.mp hr
      have := hps x hx
      omega) (by decide) (by decide)]
    unfold Vt.control
    simp only [show (0x6D : UInt8).toNat = 0x6D from rfl]
    simp only [Nat.reduceEqDiff, if_false, false_and]
    exact ⟨rfl, rfl, rfl, rfl, rfl, rfl⟩

theorem sgr_write (c : Color) : Sgr c.write := by
  unfold Color.write
  split
  · exact Or.inl rfl
  · exact Or.inr ⟨_, rfl, joinSemi_params _⟩

/-! ## One piece of output -/

/-- Stands for "anything" in a row. -/
def Spec.anything : Shown := some (.raw 0x110000, 0)

/-- What a cell of a row looks like on the terminal, if it is one of a character or of a tab, which is
shown as blanks. -/
def Spec.sight (adv : Rune → Int) : Shown → Sight
  | none => none
  | some (m, k) => some (seenOf adv (m.toRune?.getD 0x20) k)

/-- The row of the terminal with the cursor looks like this. -/
structure Spec.Mirrors (adv : Rune → Int) (r : Row) (v : Vt) : Prop where
  mode : v.mode = .ground
  col : v.col = r.col
  low : 0 ≤ r.col
  cells : ∀ x, r.cells x = anything ∨ v.cells v.row x = sight adv (r.cells x)

theorem Spec.Mirrors.unmoved {r : Row} {v v' : Vt} (h : Mirrors adv r v) (hu : Unmoved v v') : Mirrors adv r v' := by
  refine ⟨hu.mode, hu.col.trans h.col, h.low, ?_⟩
  rw [hu.row, hu.cells]
  exact h.cells

theorem newline_width (v : Vt) : v.newline.width = v.width := by
  unfold Vt.newline; split <;> rfl

theorem control_width (v : Vt) (ps : List Rune) (f : Rune) : (v.control ps f).width = v.width := by
  have ite : ∀ {p : Prop} [Decidable p] {a b : Vt}, a.width = v.width → b.width = v.width →
      (if p then a else b).width = v.width := by
    intro p _ a b ha hb
    split
    · exact ha
    · exact hb
  unfold Vt.control
  refine ite rfl (ite rfl (ite rfl (ite rfl (ite rfl (ite rfl (ite ?_ (ite ?_ (ite rfl (ite rfl (ite rfl (ite rfl rfl)))))))))))
  · split <;> rfl
  · split <;> rfl

theorem receive_width (v : Vt) (r : Rune) : (v.receive adv r).width = v.width := by
  unfold Vt.receive
  split
  · repeat' split
    all_goals first | rfl | exact newline_width v | skip
    unfold Vt.print
    split
    · rfl
    · exact newline_width v
  · repeat' split
    all_goals rfl
  · split
    · exact control_width v _ _
    · rfl

theorem feed_width (v : Vt) (rs : List Rune) : (v.feed adv rs).width = v.width := by
  induction rs generalizing v with
  | nil => rfl
  | cons r rs ih => rw [feed_cons, ih, receive_width]

/-- An ordinary character is printed as a control character, as itself, or with blanks below. -/
theorem plain_moji {r : Rune} (h : Plain C r) :
    (r < 0x20 ∧ rune2moji C r 0 = .ctrl r) ∨
    (0x20 ≤ r ∧ ¬ Padded C r ∧ (rune2moji C r 0 = .raw r ∨ rune2moji C r 0 = .ri r)) ∨
    (0x20 ≤ r ∧ Padded C r ∧ rune2moji C r 0 = .flag r) := by
  have hv : isVariationSelectorLike C r = false := by
    cases hx : isVariationSelectorLike C r with
    | false => rfl
    | true =>
      unfold isVariationSelectorLike at hx
      rw [Bool.and_eq_true] at hx
      exact absurd (Or.inr (Or.inl hx)) h.alone
  have hs : (decide (0x10000 ≤ r) && !C.surrogateOk) = false := by
    rcases h.shown with hs | hs
    · rw [decide_eq_false (by omega)]; rfl
    · rw [hs]; simp
  unfold rune2moji
  rw [if_neg h.noTab]
  by_cases h1 : r < 0x20
  · rw [if_pos h1]; exact Or.inl ⟨h1, rfl⟩
  · obtain ⟨w1, w2⟩ := h.columns.resolve_left h1
    rw [if_neg h1]
    have h0 : 0x20 ≤ r := by omega
    by_cases h2 : 0x2500 ≤ r ∧ r ≤ 0x257F ∧ C.ambWide = true
    · rw [if_pos h2]; exact Or.inr (Or.inr ⟨h0, Or.inl h2, rfl⟩)
    · rw [if_neg h2]
      have he : isToBeEscaped C r = false := by
        unfold isToBeEscaped
        rw [hv, hs, decide_eq_false (by omega)]
        rfl
      rw [if_neg (by rw [he]; simp)]
      by_cases h4 : 0x1D400 ≤ r ∧ r ≤ 0x1D7FF
      · rw [if_neg (by omega), if_pos h4]; exact Or.inr (Or.inr ⟨h0, Or.inr (Or.inl h4), rfl⟩)
      · by_cases h5 : r = 0x1F3F3
        · rw [if_neg (by omega), if_neg h4, if_pos h5]; exact Or.inr (Or.inr ⟨h0, Or.inr (Or.inr h5), rfl⟩)
        · have hp : ¬ Padded C r := by rintro (h | h | h); exact h2 h; exact h4 h; exact h5 h
          refine Or.inr (Or.inl ⟨h0, hp, ?_⟩)
          by_cases h3 : 0x1F1E6 ≤ r ∧ r ≤ 0x1F1FF
          · rw [if_pos h3]; exact Or.inr rfl
          · rw [if_neg h3, if_neg h4, if_neg h5]; exact Or.inl rfl

/-- A printable character that fits. -/
theorem receive_print {v : Vt} (hm : v.mode = .ground) {r : Rune} (h1 : 0x20 ≤ r) (h2 : ¬ (0x7F ≤ r ∧ r ≤ 0x9F))
    (hf : v.col + adv r ≤ v.width) : v.receive adv r = v.put (adv r) r := by
  unfold Vt.receive
  rw [hm]
  dsimp only
  rw [if_neg (by omega), if_neg (by omega), if_neg (by omega), if_neg (by omega), if_neg (by omega)]
  unfold Vt.print
  rw [if_pos hf]

theorem receive_back {v : Vt} (hm : v.mode = .ground) (h : 1 ≤ v.col) :
    v.receive adv 0x08 = { v with col := v.col - 1 } := by
  unfold Vt.receive
  rw [hm]
  dsimp only
  rw [if_neg (by decide), if_pos rfl, Int.max_eq_right (by omega)]

theorem receive_save {v : Vt} (hm : v.mode = .ground) :
    (v.receive adv 0x1B).receive adv 0x37 = { v with saved := (v.row, v.col) } := by
  have : v.receive adv 0x1B = { v with mode := .escape } := by
    unfold Vt.receive
    rw [hm]
    rfl
  rw [this]
  show ({ v with mode := .ground, saved := (v.row, v.col) } : Vt) = _
  rw [← hm]

theorem receive_restore {v : Vt} (hm : v.mode = .ground) :
    (v.receive adv 0x1B).receive adv 0x38 = { v with row := v.saved.1, col := v.saved.2 } := by
  have : v.receive adv 0x1B = { v with mode := .escape } := by
    unfold Vt.receive
    rw [hm]
    rfl
  rw [this]
  show ({ v with mode := .ground, row := v.saved.1, col := v.saved.2 } : Vt) = _
  rw [← hm]

/-- What an ordinary character does to the terminal. -/
structure Drawn (C : Cfg) (adv : Rune → Int) (r : Rune) (v v' : Vt) : Prop where
  mode : v'.mode = .ground
  row : v'.row = v.row
  col : v'.col = v.col + plainColumns C r
  cells : ∀ x, v'.cells v.row x =
    if v.col ≤ x ∧ x < v.col + plainColumns C r then some (seenOf adv r (x - v.col)) else v.cells v.row x
  height : v'.height = v.height
  others : ∀ y, y ≠ v.row → v'.cells y = v.cells y

theorem put_others {v : Vt} {n : Int} {r : Rune} {y : Int} (h : y ≠ v.row) : (v.put n r).cells y = v.cells y := by
  funext x
  exact if_neg fun hx => h hx.1

theorem glyph_drawn (hR : AgreesPlain C adv) {r : Rune} (hp : Plain C r) (hs : isScalar r = true) :
    ∃ rs, Reads ((rune2moji C r 0).print C) rs ∧ ∀ v : Vt, v.mode = .ground → 0 ≤ v.col →
      v.col + plainColumns C r ≤ v.width → Drawn C adv r v (v.feed adv rs) := by
  have ctl : 0x20 ≤ r → ¬ (0x7F ≤ r ∧ r ≤ 0x9F) := by
    rintro h0 ⟨h1, h2⟩
    have := hR.control r h1 h2
    have := (hp.columns.resolve_left (by omega)).1
    omega
  rcases plain_moji hp with ⟨h0, e⟩ | ⟨h0, hpad, e⟩ | ⟨h0, hpad, e⟩
  · have hw : plainColumns C r = 2 := by unfold plainColumns; rw [if_pos (Or.inl h0)]
    have hb : ∀ q : Fin 32, (0x41 + (UInt8.ofNat q.val - 1) : UInt8).toNat = q.val + 0x40 := by decide
    have hb : (0x41 + (UInt8.ofNat r - 1) : UInt8).toNat = r + 0x40 := hb ⟨r, h0⟩
    have hr := Reads.ascii (bs := [0x5E, 0x41 + (UInt8.ofNat r - 1)]) (by
      intro b hm
      simp only [List.mem_cons, List.not_mem_nil, or_false] at hm
      rcases hm with rfl | rfl
      · decide
      · rw [hb]; omega)
    simp only [List.map_cons, List.map_nil, hb, show (0x5E : UInt8).toNat = 0x5E from rfl] at hr
    refine ⟨_, by rw [e]; exact hr, fun v hm hc hf => ?_⟩
    have a1 : adv 0x5E = 1 := hR.ascii _ (by decide) (by decide)
    have a2 : adv (r + 0x40) = 1 := hR.ascii _ (by omega) (by omega)
    rw [hw] at hf
    rw [feed_cons, feed_cons, feed_nil, receive_print hm (by decide) (by decide) (by rw [a1]; omega), a1,
      receive_print (v := v.put 1 0x5E) hm (by omega) (by omega) (by rw [a2]; show v.col + 1 + 1 ≤ v.width; omega), a2]
    refine ⟨hm, rfl, by rw [hw]; show v.col + 1 + 1 = _; omega, fun x => ?_, rfl, fun y hy => ?_⟩
    rotate_left
    · rw [put_others (v := v.put 1 0x5E) hy, put_others hy]
    rw [hw]
    unfold Vt.put seenOf
    dsimp only
    rw [if_pos h0]
    by_cases h1 : x = v.col
    · subst h1
      rw [if_neg (by omega), if_pos (by omega), if_pos (by omega), if_pos (by omega)]
      simp
    · by_cases h2 : x = v.col + 1
      · subst h2
        rw [if_pos (by omega), if_pos (by omega), if_neg (by omega)]
        simp
      · rw [if_neg (by omega), if_neg (by omega), if_neg (by omega)]
  · have ha := hR.plain r hp h0 hpad
    have hpr : (rune2moji C r 0).print C = encodeRune r := by rcases e with e | e <;> rw [e] <;> rfl
    refine ⟨[r], by rw [hpr]; exact Reads.rune hs, fun v hm hc hf => ?_⟩
    rw [feed_cons, feed_nil, receive_print hm h0 (ctl h0) (by rw [ha]; exact hf), ha]
    refine ⟨hm, rfl, rfl, fun x => ?_, rfl, fun y hy => put_others hy⟩
    unfold Vt.put seenOf
    dsimp only
    rw [if_neg (by omega : ¬ r < 0x20), ha]
    by_cases h3 : v.col ≤ x ∧ x < v.col + plainColumns C r
    · rw [if_pos ⟨rfl, h3⟩, if_pos h3, if_pos (by omega)]
    · rw [if_neg (fun h => h3 h.2), if_neg h3]
  · have hw : plainColumns C r = 2 := by
      unfold plainColumns
      rw [if_pos]
      rcases hpad with h | h | h
      · exact Or.inr (Or.inl h)
      · exact Or.inr (Or.inr (Or.inr (Or.inl h)))
      · exact Or.inr (Or.inr (Or.inr (Or.inr h)))
    obtain ⟨p1, p2⟩ := hR.padded r hp hpad
    have hr := ((Reads.ascii (bs := saveCursorAfterN 2) (by decide)).append (Reads.rune hs)).append
      (Reads.ascii (bs := restoreCursor) (by decide))
    have e1 : (saveCursorAfterN 2).map UInt8.toNat = [0x20, 0x20, 0x1B, 0x37, 0x08, 0x08] := by decide
    have e2 : restoreCursor.map UInt8.toNat = [0x1B, 0x38] := by decide
    rw [e1, e2] at hr
    refine ⟨_, by rw [e]; exact hr, fun v hm hc hf => ?_⟩
    have a1 : adv 0x20 = 1 := hR.ascii _ (by decide) (by decide)
    rw [hw] at hf
    have s1 : v.feed adv [0x20, 0x20] = (v.put 1 0x20).put 1 0x20 := by
      rw [feed_cons, feed_cons, feed_nil, receive_print hm (by decide) (by decide) (by rw [a1]; omega), a1,
        receive_print (v := v.put 1 0x20) hm (by decide) (by decide) (by rw [a1]; show v.col + 1 + 1 ≤ v.width; omega), a1]
    generalize hv2 : (v.put 1 0x20).put 1 0x20 = v2 at s1
    have m2 : v2.mode = .ground := by rw [← hv2]; exact hm
    have r2 : v2.row = v.row := by rw [← hv2]; rfl
    have c2 : v2.col = v.col + 2 := by rw [← hv2]; show v.col + 1 + 1 = _; omega
    have w2 : v2.width = v.width := by rw [← hv2]; rfl
    have s2 : v2.feed adv [0x1B, 0x37, 0x08, 0x08] = { v2 with saved := (v.row, v.col + 2), col := v.col } := by
      rw [feed_cons, feed_cons, receive_save m2, feed_cons, feed_cons, feed_nil, receive_back (v := { v2 with saved := (v2.row, v2.col) }) m2
          (by show 1 ≤ v2.col; omega),
        receive_back (v := { v2 with saved := (v2.row, v2.col), col := v2.col - 1 }) m2 (by show 1 ≤ v2.col - 1; omega)]
      show ({ v2 with saved := (v2.row, v2.col), col := v2.col - 1 - 1 } : Vt) = _
      rw [r2, c2, show v.col + 2 - 1 - 1 = v.col by omega]
    have s3 : ({ v2 with saved := (v.row, v.col + 2), col := v.col } : Vt).feed adv [r] =
        ({ v2 with saved := (v.row, v.col + 2), col := v.col } : Vt).put (adv r) r := by
      rw [feed_cons, feed_nil, receive_print (v := { v2 with saved := (v.row, v.col + 2), col := v.col }) m2 h0 (ctl h0)
        (by show v.col + adv r ≤ v2.width; omega)]
    rw [show ([0x20, 0x20, 0x1B, 0x37, 0x08, 0x08] ++ [r] ++ [0x1B, 0x38] : List Rune) =
      [0x20, 0x20] ++ [0x1B, 0x37, 0x08, 0x08] ++ [r] ++ [0x1B, 0x38] from rfl, feed_append, feed_append, feed_append,
      s1, s2, s3, feed_cons, feed_cons, feed_nil,
      receive_restore (v := ({ v2 with saved := (v.row, v.col + 2), col := v.col } : Vt).put (adv r) r) m2]
    refine ⟨m2, rfl, by rw [hw]; rfl, fun x => ?_, by show v2.height = _; rw [← hv2]; rfl, fun y hy => ?_⟩
    rotate_left
    · show (({ v2 with saved := (v.row, v.col + 2), col := v.col } : Vt).put (adv r) r).cells y = _
      rw [put_others (v := { v2 with saved := (v.row, v.col + 2), col := v.col }) (by show y ≠ v2.row; rw [r2]; exact hy)]
      show v2.cells y = _
      rw [← hv2, put_others (v := v.put 1 0x20) hy, put_others hy]
    rw [hw]
    show (if v.row = v2.row ∧ v.col ≤ x ∧ x < v.col + adv r then some (r, x - v.col) else v2.cells v.row x) = _
    rw [← hv2]
    unfold Vt.put seenOf
    dsimp only
    rw [if_neg (by omega : ¬ r < 0x20)]
    by_cases h3 : v.col ≤ x ∧ x < v.col + adv r
    · rw [if_pos ⟨rfl, h3⟩, if_pos (by omega), if_pos (by omega)]
    · rw [if_neg (fun h => h3 h.2)]
      by_cases h4 : x = v.col + 1
      · subst h4
        rw [if_pos (by omega), if_pos (by omega), if_neg (by omega)]
        simp
      · rw [if_neg (by omega), if_neg (by omega), if_neg (by omega)]

theorem blanks_drawn (a1 : adv 0x20 = 1) (n : Nat) {v : Vt} (hm : v.mode = .ground) (hf : v.col + n ≤ v.width) :
    (v.feed adv (List.replicate n 0x20)).mode = .ground ∧ (v.feed adv (List.replicate n 0x20)).row = v.row ∧
    (v.feed adv (List.replicate n 0x20)).col = v.col + n ∧
    ∀ x, (v.feed adv (List.replicate n 0x20)).cells v.row x =
      if v.col ≤ x ∧ x < v.col + n then some (0x20, 0) else v.cells v.row x := by
  induction n generalizing v with
  | zero => exact ⟨hm, rfl, by show v.col = _; omega, fun x => by rw [if_neg (by omega)]; rfl⟩
  | succ n ih =>
    rw [List.replicate_succ, feed_cons, receive_print hm (by decide) (by decide) (by rw [a1]; omega), a1]
    obtain ⟨h1, h2, h3, h4⟩ := ih (v := v.put 1 0x20) hm (by show v.col + 1 + n ≤ v.width; omega)
    refine ⟨h1, h2, by rw [h3]; show v.col + 1 + n = _; omega, fun x => ?_⟩
    rw [show v.row = (v.put 1 0x20).row from rfl, h4]
    show (if v.col + 1 ≤ x ∧ x < v.col + 1 + n then some (0x20, 0) else
      if v.row = v.row ∧ v.col ≤ x ∧ x < v.col + 1 then some (0x20, x - v.col) else v.cells v.row x) = _
    by_cases hx : x = v.col
    · rw [if_neg (by omega), if_pos (by omega), if_pos (by omega), hx, Int.sub_self]
    · by_cases hy : v.col + 1 ≤ x ∧ x < v.col + 1 + n
      · rw [if_pos hy, if_pos (by omega)]
      · rw [if_neg hy, if_neg (by omega), if_neg (by omega)]
        rfl

/-! ## Output -/

/-- Literal text without effect on the row. -/
def Spec.Neutral (E : Env) (b : Bytes) : Prop := b = E.predictColor.1 ∨ b = E.predictColor.2 ∨ b = [7] ∨ b = []

instance (E : Env) (b : Bytes) : Decidable (Neutral E b) := by unfold Neutral; infer_instance

/-- Output that the terminal is up to. -/
def Spec.Simple (E : Env) (adv : Rune → Int) (W : Int) : Tok → Prop
  | .lit b => Neutral E b ∨ Landed adv W b
  | .gotoCol n => 1 ≤ n ∧ n ≤ W
  | .glyph m => (∃ r, Plain E.cfg r ∧ isScalar r = true ∧ m = rune2moji E.cfg r 0) ∨ ∃ p, m = .tab p
  | _ => True

open Classical in
/-- The column after some text. -/
noncomputable def Spec.landing (adv : Rune → Int) (W : Int) (b : Bytes) (c : Int) : Int :=
  if h : ∃ c', 0 ≤ c' ∧ Lands adv W b c c' then h.choose else 0

/-- After literal text the row may look like anything. -/
noncomputable def Spec.blur (E : Env) (adv : Rune → Int) (W : Int) (b : Bytes) (r : Row) : Row :=
  if Neutral E b then r else { col := landing adv W b r.col, cells := fun _ => anything, high := r.high }

theorem blur_high (E : Env) (W : Int) (b : Bytes) (r : Row) : (blur E adv W b r).high = r.high := by
  unfold blur; split <;> rfl

theorem bell_unmoved (v : Vt) (hm : v.mode = .ground) : Unmoved v (v.feed adv [7]) := by
  have : v.feed adv [7] = v := by
    rw [feed_cons, feed_nil]
    unfold Vt.receive
    rw [hm]
    rfl
  rw [this]
  exact ⟨hm, rfl, rfl, rfl, rfl, rfl⟩

theorem unmoved_csi {v : Vt} (hm : v.mode = .ground) {ps : List Rune} (hps : ∀ r ∈ ps, r < 0x40) {f : Rune}
    (h1 : 0x40 ≤ f) (h2 : f ≤ 0x7E) (hu : Unmoved v (v.control ps f)) :
    Unmoved v (v.feed adv ([0x1B, 0x5B] ++ ps ++ [f])) := by
  rw [feed_csi hm hps h1 h2]; exact hu

variable {E : Env} {W : Int}

theorem Spec.Mirrors.receive (hR : AgreesPlain E.cfg adv) (hc1 : Sgr E.predictColor.1) (hc2 : Sgr E.predictColor.2)
    (hW : 0 < W) {t : Tok} (ht : Simple E adv W t) : ∃ rs, Reads (t.bytes E.cfg) rs ∧
      ∀ (r : Row) (v : Vt), Mirrors adv r v → v.width = W → (Row.receive E.cfg (blur E adv W) r t).high ≤ W →
        Mirrors adv (Row.receive E.cfg (blur E adv W) r t) (v.feed adv rs) := by
  cases t with
  | flush => exact ⟨[], Reads.nil, fun r v h _ _ => h⟩
  | await => exact ⟨[], Reads.nil, fun r v h _ _ => h⟩
  | cursorOff =>
    refine ⟨_, reads_csi (ps := [0x3F, 0x32, 0x35]) (f := 0x6C) (by decide) (by decide), fun r v h _ _ => ?_⟩
    exact h.unmoved (unmoved_csi h.mode (by decide) (by decide) (by decide) ⟨rfl, rfl, rfl, rfl, rfl, rfl⟩)
  | cursorOn =>
    refine ⟨_, ((reads_csi (ps := [0x3F, 0x32, 0x35]) (f := 0x68) (by decide) (by decide)).append
      (reads_csi (ps := []) (f := 0x73) (by decide) (by decide))).append
      (reads_csi (ps := []) (f := 0x75) (by decide) (by decide)), fun r v h _ _ => h.unmoved ?_⟩
    rw [feed_append v (_ ++ _ ++ _ ++ (_ ++ _ ++ _)) (_ ++ _ ++ _), feed_append v (_ ++ _ ++ _) (_ ++ _ ++ _), feed_csi h.mode (by decide) (by decide) (by decide),
      feed_csi (v := v.control _ _) rfl (by decide) (by decide) (by decide),
      feed_csi (v := (v.control _ _).control _ _) rfl (by decide) (by decide) (by decide)]
    exact ⟨rfl, rfl, rfl, rfl, rfl, rfl⟩
  | gotoCol n =>
    obtain ⟨h1, h2⟩ := ht
    have hd : decInt n = decNat n.toNat := by unfold decInt; rw [if_neg (by omega)]
    have hdig := decNat_digits n.toNat
    refine ⟨_, by
      show Reads ([0x1B, 0x5B] ++ decInt n ++ [0x47]) _
      rw [hd]
      exact reads_csi (fun x hx => by have := hdig x hx; omega) (by decide), fun r v h hw _ => ?_⟩
    rw [feed_csi h.mode (fun q hq => by
      obtain ⟨x, hx, rfl⟩ := List.mem_map.mp hq
      have := hdig x hx
      omega) (by decide) (by decide)]
    have e : v.control ((decNat n.toNat).map UInt8.toNat) 0x47 = { v with mode := .ground, col := n - 1 } := by
      show ({ v with mode := .ground } : Vt).along (max 1 ((Vt.param ((decNat n.toNat).map UInt8.toNat) 0 1 : Nat) : Int) - 1) = _
      rw [param_decNat]
      unfold Vt.along
      dsimp only
      have : max 0 (min (max 1 (n.toNat : Int) - 1) (v.width - 1)) = n - 1 := by omega
      rw [this]
    rw [show (0x47 : UInt8).toNat = 0x47 from rfl, e]
    exact ⟨rfl, rfl, by show 0 ≤ n - 1; omega, h.cells⟩
  | eraseEol =>
    refine ⟨_, reads_csi (ps := [0x30]) (f := 0x4B) (by decide) (by decide), fun r v h _ _ => ?_⟩
    rw [feed_csi h.mode (by decide) (by decide) (by decide)]
    refine ⟨rfl, h.col, h.low, fun x => ?_⟩
    show (if x ≥ r.col then none else r.cells x) = anything ∨
      (if (v.row == v.row && decide (v.col ≤ x)) = true then none else v.cells v.row x) =
        sight adv (if x ≥ r.col then none else r.cells x)
    rw [h.col]
    by_cases hx : r.col ≤ x
    · rw [if_pos hx, if_pos (by simp [hx])]
      exact Or.inr rfl
    · rw [if_neg (by omega), if_neg (by simp; omega)]
      exact h.cells x
  | sgr c =>
    obtain ⟨rs, h1, h2⟩ := sgr_unmoved (adv := adv) (sgr_write c)
    exact ⟨rs, h1, fun r v h _ _ => h.unmoved (h2 v h.mode)⟩
  | glyph m =>
    rcases ht with ⟨q, hq, hs, rfl⟩ | ⟨p, rfl⟩
    rotate_left
    · refine ⟨_, Reads.ascii (bs := (Moji.tab p).print E.cfg) (fun b hb => ?_), fun r v h hv hf => ?_⟩
      · have hb : b = 0x20 := (List.mem_replicate.mp hb).2
        rw [hb]; decide
      have hf : max r.high (r.col + (4 - Int.tmod p 4)) ≤ W := hf
      have hn : 1 ≤ 4 - Int.tmod p 4 := by have := Int.tmod_lt_of_pos p (by decide : (0 : Int) < 4); omega
      have a1 : adv 0x20 = 1 := hR.ascii _ (by decide) (by decide)
      have e : ((Moji.tab p).print E.cfg).map UInt8.toNat = List.replicate (4 - Int.tmod p 4).toNat 0x20 := by
        show (List.replicate _ _).map _ = _
        rw [List.map_replicate]; rfl
      obtain ⟨b1, b2, b3, b4⟩ := blanks_drawn a1 (4 - Int.tmod p 4).toNat h.mode (by rw [h.col]; omega)
      rw [e]
      refine ⟨b1, ?_, ?_, fun x => ?_⟩
      · rw [b3, h.col]; show _ = r.col + (4 - Int.tmod p 4); omega
      · have := h.low; show 0 ≤ r.col + (4 - Int.tmod p 4); omega
      · rw [b2, b4, h.col]
        show (if r.col ≤ x ∧ x < r.col + (4 - Int.tmod p 4) then some (Moji.tab p, x - r.col) else r.cells x) = anything ∨
          _ = sight adv (if r.col ≤ x ∧ x < r.col + (4 - Int.tmod p 4) then some (Moji.tab p, x - r.col) else r.cells x)
        by_cases hx : r.col ≤ x ∧ x < r.col + (4 - Int.tmod p 4)
        · rw [if_pos hx, if_pos (by omega)]
          refine Or.inr ?_
          show _ = some (seenOf adv 0x20 (x - r.col))
          unfold seenOf
          rw [if_neg (by decide), a1]
          split
          · rw [show x - r.col = 0 by omega]
          · rfl
        · rw [if_neg hx, if_neg (by omega)]
          exact h.cells x
    obtain ⟨rs, h1, h2⟩ := glyph_drawn hR hq hs
    obtain ⟨-, hw, hw1, -⟩ := plain_columns hq
    refine ⟨rs, h1, fun r v h hv hf => ?_⟩
    have hf : max r.high (r.col + (rune2moji E.cfg q 0).width E.cfg) ≤ W := hf
    rw [hw] at hf
    have hd := h2 v h.mode (by rw [h.col]; exact h.low) (by rw [h.col]; omega)
    refine ⟨hd.mode, ?_, ?_, fun x => ?_⟩
    · rw [hd.col, h.col]; show _ = r.col + _; rw [hw]
    · have := h.low; show 0 ≤ r.col + _; rw [hw]; omega
    · rw [hd.row, hd.cells, h.col]
      show (if r.col ≤ x ∧ x < r.col + (rune2moji E.cfg q 0).width E.cfg then some (rune2moji E.cfg q 0, x - r.col)
        else r.cells x) = anything ∨ _ = sight adv (if r.col ≤ x ∧ x < r.col + (rune2moji E.cfg q 0).width E.cfg then
          some (rune2moji E.cfg q 0, x - r.col) else r.cells x)
      rw [hw]
      by_cases hx : r.col ≤ x ∧ x < r.col + plainColumns E.cfg q
      · rw [if_pos hx, if_pos hx]
        refine Or.inr ?_
        show _ = some (seenOf adv ((rune2moji E.cfg q 0).toRune?.getD _) _)
        have : (rune2moji E.cfg q 0).toRune? = some q := by
          rcases plain_moji hq with ⟨-, e⟩ | ⟨-, -, e | e⟩ | ⟨-, -, e⟩ <;> rw [e] <;> rfl
        rw [this]
        rfl
      · rw [if_neg hx, if_neg hx]
        exact h.cells x
  | lit b =>
    by_cases hn : Neutral E b
    · have key : ∃ rs, Reads b rs ∧ ∀ v : Vt, v.mode = .ground → Unmoved v (v.feed adv rs) := by
        rcases hn with rfl | rfl | rfl | rfl
        · exact sgr_unmoved hc1
        · exact sgr_unmoved hc2
        · exact ⟨[7], Reads.ascii (bs := [7]) (by decide), bell_unmoved⟩
        · exact ⟨[], Reads.nil, fun v hm => ⟨hm, rfl, rfl, rfl, rfl, rfl⟩⟩
      obtain ⟨rs, h1, h2⟩ := key
      refine ⟨rs, h1, fun r v h _ _ => ?_⟩
      show Mirrors adv (blur E adv W b r) _
      unfold blur
      rw [if_pos hn]
      exact h.unmoved (h2 v h.mode)
    · obtain ⟨hv, hl⟩ := ht.resolve_left hn
      refine ⟨_, Reads.valid hv, fun r v h hw _ => ?_⟩
      show Mirrors adv (blur E adv W b r) _
      unfold blur
      rw [if_neg hn]
      have he := hl r.col h.low
      have hx : landing adv W b r.col = he.choose := by unfold landing; rw [dif_pos he]
      obtain ⟨h1, h2⟩ := he.choose_spec
      rw [hx]
      have h3 := h2 v h.mode hw h.col
      exact ⟨h3.1, h3.2, h1, fun x => Or.inl rfl⟩

theorem row_high (t : Tok) (r : Row) : r.high ≤ (Row.receive E.cfg (blur E adv W) r t).high := by
  cases t with
  | lit b => exact Int.le_of_eq (blur_high E W b r).symm
  | glyph m => exact Int.le_max_left _ _
  | _ => exact Int.le_refl _

theorem row_high_run (ts : List Tok) (r : Row) : r.high ≤ (Row.run E.cfg (blur E adv W) r ts).high := by
  induction ts generalizing r with
  | nil => exact Int.le_refl _
  | cons t ts ih => exact Int.le_trans (row_high t r) (ih _)

/-- The bytes of some output do to the terminal what the output does to the row. -/
theorem Spec.Mirrors.run (hR : AgreesPlain E.cfg adv) (hc1 : Sgr E.predictColor.1) (hc2 : Sgr E.predictColor.2)
    (hW : 0 < W) {ts : List Tok} (ht : ∀ t ∈ ts, Simple E adv W t) {r : Row} {v : Vt} (h : Mirrors adv r v) (hv : v.width = W)
    (hf : (Row.run E.cfg (blur E adv W) r ts).high ≤ W) :
    Mirrors adv (Row.run E.cfg (blur E adv W) r ts) (v.run adv (ts.flatMap (Tok.bytes E.cfg))) := by
  induction ts generalizing r v with
  | nil => show Mirrors adv r (v.run adv []); unfold Vt.run; rw [runesOf_nil]; exact h
  | cons t ts ih =>
    obtain ⟨rs, h1, h2⟩ := Mirrors.receive hR hc1 hc2 hW (ht t (by simp))
    rw [List.flatMap_cons, h1.run]
    have hf' := row_high_run (E := E) (adv := adv) (W := W) ts (Row.receive E.cfg (blur E adv W) r t)
    exact ih (fun x hx => ht x (by simp [hx])) (h2 r v h hv (Int.le_trans hf' hf)) (by rw [feed_width]; exact hv) hf

end Readline
