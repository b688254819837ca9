import Verif.Spec.Glass
import Verif.Proof.Vt
import Verif.Proof.TintCall
import Verif.Proof.Merge
import Verif.Props.C58
import Verif.Props.C68
import Verif.Props.C72
/-!
# The colours of the cells of a terminal

A terminal that receives the bytes of some output has the colours that `Spec.Tint` has.
-/
namespace Readline
open Spec

variable {C : Cfg} {adv : Rune → Int} {P : Type} {ren : List Nat → P → P} {g : Glass P}

/-- The terminal receives characters. -/
def Spec.Glass.feed (ren : List Nat → P → P) (adv : Rune → Int) (g : Glass P) (rs : List Rune) : Glass P :=
  rs.foldl (Glass.receive ren adv) g

theorem gfeed_append (g : Glass P) (a b : List Rune) :
    g.feed ren adv (a ++ b) = (g.feed ren adv a).feed ren adv b := by simp [Glass.feed]

theorem gfeed_cons (g : Glass P) (r : Rune) (rs : List Rune) :
    g.feed ren adv (r :: rs) = (g.receive ren adv r).feed ren adv rs := rfl

theorem gfeed_nil (g : Glass P) : g.feed ren adv [] = g := rfl

theorem gfeed_vt (g : Glass P) (rs : List Rune) : (g.feed ren adv rs).vt = g.vt.feed adv rs := by
  induction rs generalizing g with
  | nil => rfl
  | cons r rs ih => rw [gfeed_cons, ih]; rfl

theorem grun_vt (g : Glass P) (bs : Bytes) : (g.run ren adv bs).vt = g.vt.run adv bs := gfeed_vt g _

theorem reads_eq {bs : Bytes} {rs : List Rune} (h : Reads bs rs) : rs = runesOf bs := by
  have := h []
  rw [List.append_nil, runesOf_nil, List.append_nil] at this
  exact this.symm

theorem Reads.grun {bs : Bytes} {rs : List Rune} (h : Reads bs rs) (g : Glass P) (t : Bytes) :
    g.run ren adv (bs ++ t) = (g.feed ren adv rs).run ren adv t := by
  show (runesOf (bs ++ t)).foldl _ g = _
  rw [h, List.foldl_append]
  rfl

/-! ## Control sequences -/

theorem gfeed_csi (hm : g.vt.mode = .ground) {ps : List Rune} (hps : ∀ r ∈ ps, r < 0x40) {f : Rune}
    (h1 : 0x40 ≤ f) (h2 : f ≤ 0x7E) :
    g.feed ren adv ([0x1B, 0x5B] ++ ps ++ [f]) =
      { vt := g.vt.control ps f, pen := if f = 0x6D then ren (Glass.sgrNumbers ps) g.pen else g.pen, inks := g.inks } := by
  have key : ∀ (ps qs : List Rune) (g : Glass P) (v : Vt), (∀ r ∈ ps, r < 0x40) → g.vt = { v with mode := .csi qs } →
      g.feed ren adv ps = { g with vt := { v with mode := .csi (qs ++ ps) } } := by
    intro ps
    induction ps with
    | nil => intro qs g v _ e; rw [List.append_nil, ← e]; rfl
    | cons p ps ih =>
      intro qs g v h e
      have hp := h p (by simp)
      rw [gfeed_cons]
      have : g.receive ren adv p = { g with vt := { v with mode := .csi (qs ++ [p]) } } := by
        unfold Glass.receive Glass.penAfter Glass.inksAfter Vt.receive
        rw [e]
        dsimp only
        rw [if_neg (by omega), if_neg (by omega)]
      rw [this, ih (qs ++ [p]) _ v (fun r hr => h r (by simp [hr])) rfl, List.append_assoc]
      rfl
  rw [gfeed_append, gfeed_append]
  have e1 : g.feed ren adv [0x1B, 0x5B] = { g with vt := { g.vt with mode := .csi [] } } := by
    rw [gfeed_cons, gfeed_cons, gfeed_nil]
    have : g.receive ren adv 0x1B = { g with vt := { g.vt with mode := .escape } } := by
      unfold Glass.receive Glass.penAfter Glass.inksAfter Vt.receive
      rw [hm]
      rfl
    rw [this]
    rfl
  rw [e1, key ps [] _ g.vt hps rfl, gfeed_cons, gfeed_nil]
  unfold Glass.receive Glass.penAfter Glass.inksAfter Vt.receive
  dsimp only
  rw [if_pos ⟨h1, h2⟩]
  rfl

/-- The numbers of a colour sequence are the parameters of the colour. -/
theorem sgr_numbers (ps : List Nat) (h : ps ≠ []) : Glass.sgrNumbers ((joinSemi ps).map UInt8.toNat) = ps := by
  have hd : ∀ n : Nat, ∀ r ∈ (decNat n).map UInt8.toNat, 0x30 ≤ r ∧ r ≤ 0x39 := by
    intro n r hr
    obtain ⟨b, hb, rfl⟩ := List.mem_map.mp hr
    exact decNat_digits n b hb
  have one : ∀ n : Nat, (if (decNat n).map UInt8.toNat ≠ [] ∧
      ((decNat n).map UInt8.toNat).all (fun r => decide (0x30 ≤ r) && decide (r ≤ 0x39)) = true then
      some (((decNat n).map UInt8.toNat).foldl (fun n r => 10 * n + (r - 0x30)) 0) else none) = some n := by
    intro n
    rw [if_pos ⟨by simpa using decNat_ne n, by
      rw [List.all_eq_true]
      intro r hr
      have := hd n r hr
      simp [this.1, this.2]⟩, decNat_value n]
  have split1 : ∀ n : Nat, ((decNat n).map UInt8.toNat).splitOnP (· == 0x3B) = [(decNat n).map UInt8.toNat] := by
    intro n
    exact List.splitOn_eq_singleton (fun h => by have := hd n _ h; omega)
  unfold Glass.sgrNumbers Vt.numbers
  rw [List.map_map]
  show ((_ : List Rune).splitOnP (· == 0x3B)).map _ = _
  induction ps using joinSemi.induct with
  | case1 => exact absurd rfl h
  | case2 x =>
    show (((decNat x).map UInt8.toNat).splitOnP (· == 0x3B)).map _ = _
    rw [split1, List.map_singleton]
    show [(Option.getD (if _ then _ else _) 0)] = _
    rw [one]
    rfl
  | case3 x xs hx ih =>
    rw [joinSemi]
    · have hxs : xs ≠ [] := fun e => hx e
      rw [List.append_assoc, List.map_append, List.map_append]
      show (List.splitOnP (· == 0x3B) (_ ++ 0x3B :: (joinSemi xs).map UInt8.toNat)).map _ = _
      rw [List.splitOnP_append_cons _ _ (by rfl), split1, List.map_append, ih hxs, List.map_singleton]
      show (Option.getD (if _ then _ else _) 0) :: xs = _
      rw [one]
      rfl
    · exact hx

theorem params_ne (c : Color) : c.params ≠ [] := by
  unfold Color.params
  have : ∃ n, max 1 (c &&& colorMask).toNat = n + 1 := ⟨max 1 (c &&& colorMask).toNat - 1, by omega⟩
  obtain ⟨n, e⟩ := this
  rw [e]
  exact List.cons_ne_nil _ _

/-! ## Characters -/

theorem greceive_print (hm : g.vt.mode = .ground) {r : Rune} (h1 : 0x20 ≤ r) (h2 : ¬ (0x7F ≤ r ∧ r ≤ 0x9F))
    (hf : g.vt.col + adv r ≤ g.vt.width) :
    g.receive ren adv r = { vt := g.vt.put (adv r) r, pen := g.pen, inks := Glass.stamp g.vt.row g.vt.col (adv r) g.pen g.inks } := by
  unfold Glass.receive
  rw [receive_print hm h1 h2 hf]
  unfold Glass.penAfter Glass.inksAfter
  rw [hm]
  dsimp only
  rw [if_neg (by omega), if_neg (by omega), if_pos hf]

theorem greceive_quiet (hm : g.vt.mode = .ground) {r : Rune} (h1 : r < 0x20) (h2 : r ≠ 0x0A) :
    (g.receive ren adv r).pen = g.pen ∧ (g.receive ren adv r).inks = g.inks := by
  unfold Glass.receive Glass.penAfter Glass.inksAfter
  rw [hm]
  dsimp only
  rw [if_neg h2, if_pos (Or.inl h1)]
  exact ⟨rfl, rfl⟩

theorem greceive_escape (hm : g.vt.mode = .escape) {r : Rune} :
    (g.receive ren adv r).pen = g.pen ∧ (g.receive ren adv r).inks = g.inks := by
  unfold Glass.receive Glass.penAfter Glass.inksAfter
  rw [hm]
  exact ⟨rfl, rfl⟩

/-- The columns from the cursor on have the colour of the pen. -/
structure Painted (n : Int) (g g' : Glass P) : Prop where
  pen : g'.pen = g.pen
  inks : ∀ x, g'.inks g.vt.row x = if g.vt.col ≤ x ∧ x < g.vt.col + n then g.pen else g.inks g.vt.row x

theorem stamp_row (row col n : Int) (pen : P) (inks : Int → Int → P) (x : Int) :
    Glass.stamp row col n pen inks row x = if col ≤ x ∧ x < col + n then pen else inks row x := by
  unfold Glass.stamp
  simp only [true_and]

theorem glyph_painted (hR : AgreesPlain C adv) {r : Rune} (hp : Plain C r) (hs : isScalar r = true) :
    ∃ rs, Reads ((rune2moji C r 0).print C) rs ∧ ∀ g : Glass P, g.vt.mode = .ground → 0 ≤ g.vt.col →
      g.vt.col + plainColumns C r ≤ g.vt.width → Painted (plainColumns C r) g (g.feed ren adv rs) := by
  have ctl : 0x20 ≤ r → ¬ (0x7F ≤ r ∧ r ≤ 0x9F) := by
    rintro h0 ⟨h1, h2⟩
    have := hR.control r h1 h2
    have := (hp.columns.resolve_left (by omega)).1
    omega
  rcases plain_moji hp with ⟨h0, e⟩ | ⟨h0, hpad, e⟩ | ⟨h0, hpad, e⟩
  · have hw : plainColumns C r = 2 := by unfold plainColumns; rw [if_pos (Or.inl h0)]
    have hb : ∀ q : Fin 32, (0x41 + (UInt8.ofNat q.val - 1) : UInt8).toNat = q.val + 0x40 := by decide
    have hb : (0x41 + (UInt8.ofNat r - 1) : UInt8).toNat = r + 0x40 := hb ⟨r, h0⟩
    have hr := Reads.ascii (bs := [0x5E, 0x41 + (UInt8.ofNat r - 1)]) (by
      intro b hm
      simp only [List.mem_cons, List.not_mem_nil, or_false] at hm
      rcases hm with rfl | rfl
      · decide
      · rw [hb]; omega)
    simp only [List.map_cons, List.map_nil, hb, show (0x5E : UInt8).toNat = 0x5E from rfl] at hr
    refine ⟨_, by rw [e]; exact hr, fun g hm hc hf => ?_⟩
    have a1 : adv 0x5E = 1 := hR.ascii _ (by decide) (by decide)
    have a2 : adv (r + 0x40) = 1 := hR.ascii _ (by omega) (by omega)
    rw [hw] at hf
    rw [gfeed_cons, gfeed_cons, gfeed_nil, greceive_print hm (by decide) (by decide) (by rw [a1]; omega), a1,
      greceive_print (g := { vt := g.vt.put 1 0x5E, pen := g.pen, inks := Glass.stamp g.vt.row g.vt.col 1 g.pen g.inks }) hm (by omega) (by omega)
        (by rw [a2]; show g.vt.col + 1 + 1 ≤ g.vt.width; omega), a2]
    refine ⟨rfl, fun x => ?_⟩
    show Glass.stamp g.vt.row (g.vt.col + 1) 1 g.pen (Glass.stamp g.vt.row g.vt.col 1 g.pen g.inks) g.vt.row x = _
    rw [stamp_row, stamp_row, hw]
    by_cases h1 : g.vt.col ≤ x ∧ x < g.vt.col + 2
    · rw [if_pos h1]
      split
      · rfl
      · rw [if_pos (by omega)]
    · rw [if_neg h1, if_neg (by omega), if_neg (by omega)]
  · have ha := hR.plain r hp h0 hpad
    have hpr : (rune2moji C r 0).print C = encodeRune r := by rcases e with e | e <;> rw [e] <;> rfl
    refine ⟨[r], by rw [hpr]; exact Reads.rune hs, fun g hm hc hf => ?_⟩
    rw [gfeed_cons, gfeed_nil, greceive_print hm h0 (ctl h0) (by rw [ha]; exact hf), ha]
    exact ⟨rfl, fun x => stamp_row ..⟩
  · have hw : plainColumns C r = 2 := by
      unfold plainColumns
      rw [if_pos]
      rcases hpad with h | h | h
      · exact Or.inr (Or.inl h)
      · exact Or.inr (Or.inr (Or.inr (Or.inl h)))
      · exact Or.inr (Or.inr (Or.inr (Or.inr h)))
    obtain ⟨p1, p2⟩ := hR.padded r hp hpad
    have hr := ((Reads.ascii (bs := saveCursorAfterN 2) (by decide)).append (Reads.rune hs)).append
      (Reads.ascii (bs := restoreCursor) (by decide))
    have e1 : (saveCursorAfterN 2).map UInt8.toNat = [0x20, 0x20, 0x1B, 0x37, 0x08, 0x08] := by decide
    have e2 : restoreCursor.map UInt8.toNat = [0x1B, 0x38] := by decide
    rw [e1, e2] at hr
    refine ⟨_, by rw [e]; exact hr, fun g hm hc hf => ?_⟩
    have a1 : adv 0x20 = 1 := hR.ascii _ (by decide) (by decide)
    rw [hw] at hf
    have s1 : g.feed ren adv [0x20, 0x20] = { vt := (g.vt.put 1 0x20).put 1 0x20, pen := g.pen, inks := Glass.stamp g.vt.row (g.vt.col + 1) 1 g.pen (Glass.stamp g.vt.row g.vt.col 1 g.pen g.inks) } := by
      rw [gfeed_cons, gfeed_cons, gfeed_nil, greceive_print hm (by decide) (by decide) (by rw [a1]; omega), a1,
        greceive_print (g := { vt := g.vt.put 1 0x20, pen := g.pen, inks := Glass.stamp g.vt.row g.vt.col 1 g.pen g.inks }) hm (by decide) (by decide)
          (by rw [a1]; show g.vt.col + 1 + 1 ≤ g.vt.width; omega), a1]
      rfl
    generalize hg2 : (Glass.mk ((g.vt.put 1 0x20).put 1 0x20) g.pen (Glass.stamp g.vt.row (g.vt.col + 1) 1 g.pen (Glass.stamp g.vt.row g.vt.col 1 g.pen g.inks)) : Glass P) = g2 at s1
    have m2 : g2.vt.mode = .ground := by rw [← hg2]; exact hm
    have r2 : g2.vt.row = g.vt.row := by rw [← hg2]; rfl
    have c2 : g2.vt.col = g.vt.col + 2 := by rw [← hg2]; show g.vt.col + 1 + 1 = _; omega
    have w2 : g2.vt.width = g.vt.width := by rw [← hg2]; rfl
    have p2' : g2.pen = g.pen := by rw [← hg2]
    have i2 : ∀ x, g2.inks g.vt.row x = if g.vt.col ≤ x ∧ x < g.vt.col + 2 then g.pen else g.inks g.vt.row x := by
      intro x
      rw [← hg2]
      show Glass.stamp g.vt.row (g.vt.col + 1) 1 g.pen (Glass.stamp g.vt.row g.vt.col 1 g.pen g.inks) g.vt.row x = _
      rw [stamp_row, stamp_row]
      by_cases h1 : g.vt.col ≤ x ∧ x < g.vt.col + 2
      · rw [if_pos h1]
        split
        · rfl
        · rw [if_pos (by omega)]
      · rw [if_neg h1, if_neg (by omega), if_neg (by omega)]
    clear hg2
    have s2 : g2.feed ren adv [0x1B, 0x37, 0x08, 0x08] = { g2 with vt := { g2.vt with saved := (g.vt.row, g.vt.col + 2), col := g.vt.col } } := by
      have hv : (g2.feed ren adv [0x1B, 0x37, 0x08, 0x08]).vt = { g2.vt with saved := (g.vt.row, g.vt.col + 2), col := g.vt.col } := by
        rw [gfeed_vt, feed_cons, feed_cons, receive_save m2, feed_cons, feed_cons, feed_nil, receive_back (v := { g2.vt with saved := (g2.vt.row, g2.vt.col) }) m2
            (by show 1 ≤ g2.vt.col; omega),
          receive_back (v := { g2.vt with saved := (g2.vt.row, g2.vt.col), col := g2.vt.col - 1 }) m2 (by show 1 ≤ g2.vt.col - 1; omega)]
        show ({ g2.vt with saved := (g2.vt.row, g2.vt.col), col := g2.vt.col - 1 - 1 } : Vt) = _
        rw [r2, c2, show g.vt.col + 2 - 1 - 1 = g.vt.col by omega]
      have q1 := greceive_quiet (ren := ren) (adv := adv) m2 (r := 0x1B) (by decide) (by decide)
      have n1 : (g2.receive ren adv 0x1B).vt.mode = .escape := by
        show (g2.vt.receive adv 0x1B).mode = _
        unfold Vt.receive; rw [m2]; rfl
      have q2 := greceive_escape (ren := ren) (adv := adv) n1 (r := 0x37)
      have n2 : ((g2.receive ren adv 0x1B).receive ren adv 0x37).vt = { g2.vt with saved := (g2.vt.row, g2.vt.col) } := receive_save m2
      have q3 := greceive_quiet (ren := ren) (adv := adv) (g := (g2.receive ren adv 0x1B).receive ren adv 0x37) (by rw [n2]; exact m2) (r := 0x08) (by decide) (by decide)
      have n3 : (((g2.receive ren adv 0x1B).receive ren adv 0x37).receive ren adv 0x08).vt.mode = .ground := by
        show (Vt.receive adv ((g2.receive ren adv 0x1B).receive ren adv 0x37).vt 0x08).mode = _
        rw [n2, receive_back (v := { g2.vt with saved := (g2.vt.row, g2.vt.col) }) m2 (by show 1 ≤ g2.vt.col; omega)]
        exact m2
      have q4 := greceive_quiet (ren := ren) (adv := adv) n3 (r := 0x08) (by decide) (by decide)
      have ext : ∀ a : Glass P, ∀ v p i, a.vt = v → a.pen = p → a.inks = i → a = ⟨v, p, i⟩ := by
        rintro ⟨_, _, _⟩ _ _ _ rfl rfl rfl; rfl
      exact ext _ _ _ _ hv (q4.1.trans (q3.1.trans (q2.1.trans q1.1))) (q4.2.trans (q3.2.trans (q2.2.trans q1.2)))
    have s3 := greceive_print (ren := ren) (adv := adv) (g := { g2 with vt := { g2.vt with saved := (g.vt.row, g.vt.col + 2), col := g.vt.col } }) m2 h0 (ctl h0)
      (by show g.vt.col + adv r ≤ g2.vt.width; omega)
    rw [show ([0x20, 0x20, 0x1B, 0x37, 0x08, 0x08] ++ [r] ++ [0x1B, 0x38] : List Rune) =
      [0x20, 0x20] ++ [0x1B, 0x37, 0x08, 0x08] ++ [r] ++ [0x1B, 0x38] from rfl, gfeed_append, gfeed_append, gfeed_append,
      s1, s2, show ∀ q : Glass P, q.feed ren adv [r] = q.receive ren adv r from fun _ => rfl, s3]
    generalize hg3 : (Glass.mk _ _ _ : Glass P) = g3
    have m3 : g3.vt.mode = .ground := by rw [← hg3]; exact m2
    have q1 := greceive_quiet (ren := ren) (adv := adv) m3 (r := 0x1B) (by decide) (by decide)
    have n1 : (g3.receive ren adv 0x1B).vt.mode = .escape := by
      show (g3.vt.receive adv 0x1B).mode = _
      unfold Vt.receive; rw [m3]; rfl
    have q2 := greceive_escape (ren := ren) (adv := adv) n1 (r := 0x38)
    rw [gfeed_cons, gfeed_cons, gfeed_nil]
    refine ⟨by rw [q2.1, q1.1, ← hg3]; exact p2', fun x => ?_⟩
    rw [q2.2, q1.2, ← hg3]
    show Glass.stamp g2.vt.row g.vt.col (adv r) g2.pen g2.inks g.vt.row x = _
    rw [r2, stamp_row, i2, p2', hw]
    split
    · rw [if_pos (by omega)]
    · rfl

theorem blanks_painted (a1 : adv 0x20 = 1) (n : Nat) {g : Glass P} (hm : g.vt.mode = .ground) (hf : g.vt.col + n ≤ g.vt.width) :
    Painted n g (g.feed ren adv (List.replicate n 0x20)) := by
  induction n generalizing g with
  | zero => exact ⟨rfl, fun x => by rw [if_neg (by omega)]; rfl⟩
  | succ n ih =>
    rw [List.replicate_succ, gfeed_cons, greceive_print hm (by decide) (by decide) (by rw [a1]; omega), a1]
    obtain ⟨h1, h2⟩ := ih (g := { vt := g.vt.put 1 0x20, pen := g.pen, inks := Glass.stamp g.vt.row g.vt.col 1 g.pen g.inks }) hm
      (by show g.vt.col + 1 + n ≤ g.vt.width; omega)
    refine ⟨h1, fun x => ?_⟩
    have := h2 x
    refine this.trans ?_
    show (if g.vt.col + 1 ≤ x ∧ x < g.vt.col + 1 + n then g.pen else Glass.stamp g.vt.row g.vt.col 1 g.pen g.inks g.vt.row x) = _
    rw [stamp_row]
    by_cases hx : x = g.vt.col
    · rw [if_neg (by omega), if_pos (by omega), if_pos (by omega)]
    · by_cases hy : g.vt.col + 1 ≤ x ∧ x < g.vt.col + 1 + n
      · rw [if_pos hy, if_pos (by omega)]
      · rw [if_neg hy, if_neg (by omega), if_neg (by omega)]

/-! ## Output -/

variable {E : Env} {W : Int}

/-- After literal text the colours may be any. -/
noncomputable def Spec.tinge (E : Env) (adv : Rune → Int) (W : Int) (b : Bytes) (t : Tint) : Tint :=
  if Neutral E b then { t with ink := none }
  else { row := blur E adv W b t.row, ink := none, inks := fun _ => none }

theorem tinge_row (b : Bytes) (t : Tint) : (tinge E adv W b t).row = blur E adv W b t.row := by
  unfold tinge
  split
  · rename_i h
    show t.row = _
    unfold blur
    rw [if_pos h]
  · rfl

theorem tinge_vivid (hw : ∀ m : Moji, 0 ≤ m.width E.cfg) (h1 : Colourful E.coloring) (h2 : CursorBlind E.coloring) :
    Vivid E (tinge E adv W) := by
  have key : ∀ b t, Neutral E b → (tinge E adv W b t).row = t.row ∧ (tinge E adv W b t).inks = t.inks := by
    intro b t h
    unfold tinge
    rw [if_pos h]
    exact ⟨rfl, rfl⟩
  exact ⟨hw, h1, h2, fun t => key _ t (.inl rfl), fun t => key _ t (.inr (.inl rfl)), fun t => key _ t (.inr (.inr (.inl rfl)))⟩

/-- The row of the terminal with the cursor has these colours. -/
structure Spec.Glazed (ren : List Nat → P → P) (t : Tint) (g : Glass P) : Prop where
  pen : ∀ c, t.ink = some c → ∃ p, g.pen = ren c.params p
  inks : ∀ x c, t.inks x = some c → ∃ p, g.inks g.vt.row x = ren c.params p

theorem Spec.Glazed.same {t : Tint} {g g' : Glass P} (h : Glazed ren t g) (h1 : g'.pen = g.pen) (h2 : g'.inks = g.inks)
    (h3 : g'.vt.row = g.vt.row) : Glazed ren t g' :=
  ⟨fun c hc => by rw [h1]; exact h.pen c hc, fun x c hc => by rw [h2, h3]; exact h.inks x c hc⟩

theorem Spec.Glazed.painted {t : Tint} {g g' : Glass P} {n : Int} (h : Glazed ren t g) (hp : Painted n g g') (hr : g'.vt.row = g.vt.row)
    {t' : Tint} (h1 : t'.ink = t.ink)
    (h2 : ∀ x, t'.inks x = if g.vt.col ≤ x ∧ x < g.vt.col + n then t.ink else t.inks x) : Glazed ren t' g' := by
  refine ⟨fun c hc => by rw [hp.pen]; exact h.pen c (h1 ▸ hc), fun x c hc => ?_⟩
  rw [hr, hp.inks]
  rw [h2] at hc
  split
  · rename_i hx; rw [if_pos hx] at hc; exact h.pen c hc
  · rename_i hx; rw [if_neg hx] at hc; exact h.inks x c hc

/-- A colour sequence leaves the cells alone. -/
theorem gsgr_inks {b : Bytes} (h : Sgr b) {g : Glass P} (hm : g.vt.mode = .ground) :
    (g.feed ren adv (runesOf b)).inks = g.inks ∧ (g.feed ren adv (runesOf b)).vt.row = g.vt.row := by
  obtain ⟨rs, h1, h2⟩ := sgr_unmoved (adv := adv) h
  rw [gfeed_vt, ← reads_eq h1, (h2 g.vt hm).row, reads_eq h1]
  refine ⟨?_, rfl⟩
  rcases h with rfl | ⟨ps, rfl, hps⟩
  · rw [runesOf_nil]; rfl
  · rw [← reads_eq (reads_csi (fun x hx => by have := hps x hx; omega) (by decide)),
      gfeed_csi hm (fun r hr => by
        obtain ⟨x, hx, rfl⟩ := List.mem_map.mp hr
        have := hps x hx
        omega) (by decide) (by decide)]

theorem gcsi_same {g : Glass P} (hm : g.vt.mode = .ground) {ps : List Rune} (hps : ∀ r ∈ ps, r < 0x40) {f : Rune}
    (h1 : 0x40 ≤ f) (h2 : f ≤ 0x7E) (h3 : f ≠ 0x6D) :
    g.feed ren adv ([0x1B, 0x5B] ++ ps ++ [f]) = { g with vt := g.vt.control ps f } := by
  rw [gfeed_csi hm hps h1 h2, if_neg h3]

theorem Spec.Glazed.receive (hR : AgreesPlain E.cfg adv) (hc1 : Sgr E.predictColor.1) (hc2 : Sgr E.predictColor.2)
    (_hW : 0 < W) {k : Tok} (hk : Simple E adv W k) {t : Tint} {g : Glass P} (hm : Mirrors adv t.row g.vt) (hv : g.vt.width = W)
    (hf : (Row.receive E.cfg (blur E adv W) t.row k).high ≤ W) (h : Glazed ren t g) :
    Glazed ren (t.receive E.cfg (tinge E adv W) k) (g.feed ren adv (runesOf (k.bytes E.cfg))) := by
  cases k with
  | flush => show Glazed ren t (g.feed ren adv (runesOf [])); rw [runesOf_nil]; exact h
  | await => show Glazed ren t (g.feed ren adv (runesOf [])); rw [runesOf_nil]; exact h
  | cursorOff =>
    show Glazed ren t (g.feed ren adv (runesOf ([0x1B, 0x5B] ++ [0x3F, 0x32, 0x35] ++ [0x6C])))
    rw [← reads_eq (reads_csi (ps := [0x3F, 0x32, 0x35]) (f := 0x6C) (by decide) (by decide)),
      gcsi_same hm.mode (by decide) (by decide) (by decide) (by decide)]
    exact h.same rfl rfl rfl
  | cursorOn =>
    show Glazed ren t (g.feed ren adv (runesOf ([0x1B, 0x5B] ++ [0x3F, 0x32, 0x35] ++ [0x68] ++ ([0x1B, 0x5B] ++ [] ++ [0x73]) ++ ([0x1B, 0x5B] ++ [] ++ [0x75]))))
    rw [← reads_eq (((reads_csi (ps := [0x3F, 0x32, 0x35]) (f := 0x68) (by decide) (by decide)).append
      (reads_csi (ps := []) (f := 0x73) (by decide) (by decide))).append
      (reads_csi (ps := []) (f := 0x75) (by decide) (by decide))),
      gfeed_append _ (_ ++ _ ++ _ ++ (_ ++ _ ++ _)) (_ ++ _ ++ _), gfeed_append _ (_ ++ _ ++ _) (_ ++ _ ++ _),
      gcsi_same hm.mode (by decide) (by decide) (by decide) (by decide),
      gcsi_same (g := { g with vt := g.vt.control _ _ }) rfl (by decide) (by decide) (by decide) (by decide),
      gcsi_same (g := { g with vt := (g.vt.control _ _).control _ _ }) rfl (by decide) (by decide) (by decide) (by decide)]
    exact h.same rfl rfl rfl
  | gotoCol n =>
    obtain ⟨h1, h2⟩ := hk
    have hd : decInt n = decNat n.toNat := by unfold decInt; rw [if_neg (by omega)]
    have hdig := decNat_digits n.toNat
    have hr : Reads ((Tok.gotoCol n).bytes E.cfg) ([0x1B, 0x5B] ++ (decNat n.toNat).map UInt8.toNat ++ [0x47]) := by
      show Reads ([0x1B, 0x5B] ++ decInt n ++ [0x47]) _
      rw [hd]
      exact reads_csi (f := 0x47) (fun x hx => by have := hdig x hx; omega) (by decide)
    rw [← reads_eq hr, gcsi_same hm.mode (fun q hq => by
      obtain ⟨x, hx, rfl⟩ := List.mem_map.mp hq
      have := hdig x hx
      omega) (by decide) (by decide) (by decide)]
    exact Glazed.same (t := { t with row := { t.row with col := n - 1 } }) ⟨h.pen, h.inks⟩ rfl rfl rfl
  | eraseEol =>
    show Glazed ren _ (g.feed ren adv (runesOf ([0x1B, 0x5B] ++ [0x30] ++ [0x4B])))
    rw [← reads_eq (reads_csi (ps := [0x30]) (f := 0x4B) (by decide) (by decide)),
      gcsi_same hm.mode (by decide) (by decide) (by decide) (by decide)]
    exact Glazed.same (t := { t with row := { t.row with cells := fun x => if x ≥ t.row.col then none else t.row.cells x } }) ⟨h.pen, h.inks⟩ rfl rfl rfl
  | sgr c =>
    show Glazed ren { t with ink := setInk t.ink c } (g.feed ren adv (runesOf c.write))
    obtain ⟨q1, q2⟩ := gsgr_inks (ren := ren) (adv := adv) (sgr_write c) hm.mode
    refine ⟨fun d hd => ?_, fun x d hd => by rw [q1, q2]; exact h.inks x d hd⟩
    by_cases hw : c.write = []
    · rw [hw, runesOf_nil]
      have hd : setInk t.ink c = some d := hd
      unfold setInk at hd
      rw [if_pos hw] at hd
      exact h.pen d hd
    · have hd : setInk t.ink c = some d := hd
      unfold setInk at hd
      rw [if_neg hw] at hd
      obtain rfl : c = d := by injection hd
      have e : c.write = [0x1B, 0x5B] ++ joinSemi c.params ++ [0x6D] := by
        unfold Color.write at hw ⊢
        split
        · rename_i h0; rw [if_pos h0] at hw; exact absurd rfl hw
        · rfl
      have hps := joinSemi_params c.params
      rw [e, ← reads_eq (reads_csi (fun x hx => by have := hps x hx; omega) (by decide)),
        gfeed_csi hm.mode (fun r hr => by
          obtain ⟨x, hx, rfl⟩ := List.mem_map.mp hr
          have := hps x hx
          omega) (by decide) (by decide)]
      refine ⟨g.pen, ?_⟩
      show (if (0x6D : UInt8).toNat = 0x6D then ren (Glass.sgrNumbers ((joinSemi c.params).map UInt8.toNat)) g.pen else g.pen) = _
      rw [if_pos (by decide), sgr_numbers _ (params_ne c)]
  | glyph m =>
    rcases hk with ⟨q, hq, hs, rfl⟩ | ⟨p, rfl⟩
    · obtain ⟨rs, h1, h2⟩ := glyph_painted (P := P) (ren := ren) hR hq hs
      obtain ⟨rs', h1', h2'⟩ := glyph_drawn hR hq hs
      have hw := (plain_columns hq).2.1
      have hf : max t.row.high (t.row.col + (rune2moji E.cfg q 0).width E.cfg) ≤ W := hf
      rw [hw] at hf
      have hc : g.vt.col = t.row.col := hm.col
      have l0 : 0 ≤ g.vt.col := by rw [hc]; exact hm.low
      have l1 : g.vt.col + plainColumns E.cfg q ≤ g.vt.width := by omega
      have hd := h2' g.vt hm.mode l0 l1
      have hp := h2 g hm.mode l0 l1
      show Glazed ren _ (g.feed ren adv (runesOf ((rune2moji E.cfg q 0).print E.cfg)))
      rw [← reads_eq h1]
      refine h.painted hp ?_ rfl (fun x => ?_)
      · rw [gfeed_vt, reads_eq h1, ← reads_eq h1']; exact hd.row
      · show (if t.row.col ≤ x ∧ x < t.row.col + (rune2moji E.cfg q 0).width E.cfg then t.ink else t.inks x) = _
        rw [hw, hc]
    · have hf : max t.row.high (t.row.col + (4 - Int.tmod p 4)) ≤ W := hf
      have hn : 1 ≤ 4 - Int.tmod p 4 := by have := Int.tmod_lt_of_pos p (by decide : (0 : Int) < 4); omega
      have a1 : adv 0x20 = 1 := hR.ascii _ (by decide) (by decide)
      have hr := Reads.ascii (bs := (Moji.tab p).print E.cfg) (fun b hb => by
        have hb : b = 0x20 := (List.mem_replicate.mp hb).2
        rw [hb]; decide)
      have e : ((Moji.tab p).print E.cfg).map UInt8.toNat = List.replicate (4 - Int.tmod p 4).toNat 0x20 := by
        show (List.replicate _ _).map _ = _
        rw [List.map_replicate]; rfl
      rw [e] at hr
      have hc : g.vt.col = t.row.col := hm.col
      have l1 : g.vt.col + (4 - Int.tmod p 4).toNat ≤ g.vt.width := by omega
      show Glazed ren _ (g.feed ren adv (runesOf ((Moji.tab p).print E.cfg)))
      rw [← reads_eq hr]
      refine h.painted (blanks_painted a1 _ hm.mode l1) ?_ rfl (fun x => ?_)
      · rw [gfeed_vt]; exact (blanks_drawn a1 _ hm.mode l1).2.1
      · show (if t.row.col ≤ x ∧ x < t.row.col + (4 - Int.tmod p 4) then t.ink else t.inks x) = _
        rw [hc, show (((4 - Int.tmod p 4).toNat : Nat) : Int) = 4 - Int.tmod p 4 by omega]
  | lit b =>
    show Glazed ren (tinge E adv W b t) (g.feed ren adv (runesOf b))
    unfold tinge
    by_cases hn : Neutral E b
    · rw [if_pos hn]
      have key : (g.feed ren adv (runesOf b)).inks = g.inks ∧ (g.feed ren adv (runesOf b)).vt.row = g.vt.row := by
        rcases hn with rfl | rfl | rfl | rfl
        · exact gsgr_inks hc1 hm.mode
        · exact gsgr_inks hc2 hm.mode
        · rw [← reads_eq (Reads.ascii (bs := [7]) (by decide))]
          refine ⟨(greceive_quiet hm.mode (r := 7) (by decide) (by decide)).2, ?_⟩
          rw [gfeed_vt]
          exact (bell_unmoved g.vt hm.mode).row
        · rw [runesOf_nil]; exact ⟨rfl, rfl⟩
      refine ⟨fun c hc => (nomatch hc), fun x c hc => ?_⟩
      rw [key.1, key.2]
      exact h.inks x c hc
    · rw [if_neg hn]
      exact ⟨fun c hc => (nomatch hc), fun x c hc => (nomatch hc)⟩

/-- The bytes of some output do to the colours of the terminal what the output does to those of the row. -/
theorem Spec.Glazed.run (hR : AgreesPlain E.cfg adv) (hc1 : Sgr E.predictColor.1) (hc2 : Sgr E.predictColor.2)
    (hW : 0 < W) {ts : List Tok} (ht : ∀ t ∈ ts, Simple E adv W t) {t : Tint} {g : Glass P} (hm : Mirrors adv t.row g.vt)
    (hv : g.vt.width = W) (hf : (Row.run E.cfg (blur E adv W) t.row ts).high ≤ W) (h : Glazed ren t g) :
    Glazed ren (t.run E.cfg (tinge E adv W) ts) (g.run ren adv (ts.flatMap (Tok.bytes E.cfg))) := by
  induction ts generalizing t g with
  | nil => show Glazed ren t (g.run ren adv []); unfold Glass.run; rw [runesOf_nil]; exact h
  | cons k ts ih =>
    obtain ⟨rs, h1, h2⟩ := Mirrors.receive hR hc1 hc2 hW (ht k (by simp))
    obtain rfl := reads_eq h1
    rw [List.flatMap_cons, h1.grun]
    have hf' := row_high_run (E := E) (adv := adv) (W := W) ts (Row.receive E.cfg (blur E adv W) t.row k)
    have hk := Int.le_trans hf' hf
    have e : (t.receive E.cfg (tinge E adv W) k).row = Row.receive E.cfg (blur E adv W) t.row k := by
      cases k <;> first | rfl | exact tinge_row _ _
    refine ih (fun x hx => ht x (by simp [hx])) (t := t.receive E.cfg (tinge E adv W) k) ?_ ?_ ?_ ?_
    · rw [e, gfeed_vt]; exact h2 t.row g.vt hm hv hk
    · rw [gfeed_vt, feed_width]; exact hv
    · rw [e]; exact hf
    · exact h.receive hR hc1 hc2 hW (ht k (by simp)) hm hv hk

end Readline
