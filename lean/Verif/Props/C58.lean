import Verif.Proof.Vt
import Verif.Proof.Behind
import Verif.Proof.Goto
import Verif.Proof.Printed
import Verif.Spec.SeenTabs
import Verif.Props.C01
import Verif.Props.C27
import Verif.Props.C55
/-!
# C58: the bytes that readline writes make the terminal show the line

`C58_partial`: while readline waits for a key, a terminal in the manner of a VT100 that has received
all bytes written so far shows the line behind the prompt, with its cursor where the editor's cursor
is.  Proved for sessions with ordinary characters (see C26), built-in commands, completion without
lists and a prompt that leaves the terminal ready for more.
`C58_prompt_partial`: the prompt stays in front of it; `C58_sign_partial`: also prompts that must be written at the beginning of a row.
`C58_texts_partial`: the same for the default keys and the default prompt, with conditions on the
texts, the keys and the terminal alone; `ReadLine` returns, and nothing panics.
`C58_tabs_partial`: lines with tabs that always fit, however their tabs fall: the terminal shows all of
the line, with every tab as blanks up to the next multiple of four columns from the beginning of the line.

Missing for the full statement: joined characters and tabs in lines that scroll (C26), the lists of completion (C46), a
terminal whose width changes (C53).
-/
namespace Readline
open Spec

variable {E : Env} {w : World} {s : St} {adv : Rune → Int} {W : Int}

/-! ## Ordinary characters are scalar values -/

theorem over_scalar {P : Nat → Prop} {t : Bytes} (h : Over P t) : Over (fun r => P r ∧ isScalar r = true) t :=
  fun r hr => ⟨h r hr, runesOf_isScalar t r hr⟩

theorem over_weaken {P P' : Nat → Prop} {t : Bytes} (hp : ∀ r, P r → P' r) (h : Over P t) : Over P' t :=
  fun r hr => hp r (h r hr)

theorem Spec.Ordinary.scalar {P : Nat → Prop} (ho : Ordinary P E w) : Ordinary (fun r => P r ∧ isScalar r = true) E w := by
  obtain ⟨⟨a1, a2, a3, a4, a5, a6, a7, a8, a9, a10⟩, b1, b2, b3, b4, b5, b6, b7⟩ := ho
  refine ⟨⟨over_scalar a1, fun h hh => over_scalar (a2 h hh), fun t ht => over_scalar (a3 t ht), fun c t u hu => ?_,
    fun f hf t hv ht => over_scalar (a5 f hf t hv (over_weaken (fun r h => h.1) ht)), fun k hk => over_scalar (a6 k hk),
    fun q K h1 h2 x pos t h3 => over_scalar (a7 q K h1 h2 x pos t h3), fun q h1 h2 => ⟨a8 q h1 h2, by decide⟩,
    fun hz hj => ?_, a10⟩, fun r hr => b1 r hr.1, b2, b3, b4, b5, b6, fun q h1 h2 => ?_⟩
  · rcases a4 c t u hu with h | h | h
    · exact Or.inl h
    · exact Or.inr (Or.inl h)
    · exact Or.inr (Or.inr (over_scalar h))
  · obtain ⟨h1, h2⟩ := a9 hz (hj.imp (fun h => h.1) (fun h => h.1))
    exact ⟨⟨h1, by decide⟩, ⟨h2, by decide⟩⟩
  · obtain ⟨k, hk⟩ := b7 q h1 h2
    exact ⟨k, fun r hr => hk r hr.1⟩

theorem Spec.Plainly.scalar {P : Nat → Prop} (hx : Plainly P E w) : Plainly (fun r => P r ∧ isScalar r = true) E w := by
  refine ⟨fun q h1 h2 => ?_, hx.box⟩
  obtain ⟨h3, h4⟩ := hx.search q h1 h2
  refine ⟨fun r hr => ⟨h3 r hr, ?_⟩, fun k hk => (h4 k hk).imp id fun h => ⟨h, decode_isScalar k⟩⟩
  revert r
  decide

/-! ## Literal output -/

theorem blur_sane (hw : ∀ m : Moji, 0 ≤ m.width E.cfg) : Sane E (blur E adv W) where
  width := hw
  color1 r := by unfold blur; exact if_pos (Or.inl rfl)
  color2 r := by unfold blur; exact if_pos (Or.inr (Or.inl rfl))
  bell r := by unfold blur; exact if_pos (Or.inr (Or.inr (Or.inl rfl)))
  nothing r := by unfold blur; exact if_pos (Or.inr (Or.inr (Or.inr rfl)))
  high b r := blur_high E W b r

theorem newline_col (v : Vt) : v.newline.col = 0 := by unfold Vt.newline; split <;> rfl
theorem newline_mode (v : Vt) : v.newline.mode = v.mode := by unfold Vt.newline; split <;> rfl

theorem ascii_valid {b : Bytes} (h : ∀ x ∈ b, x < 0x80) : ValidUtf8 b :=
  (ascii_over (P := fun _ => True) fun x hx => ⟨h x hx, trivial⟩).1

theorem receive_ascii (ha : ∀ r, 0x20 ≤ r → r ≤ 0x7E → adv r = 1) {v : Vt} (hm : v.mode = .ground) {r : Rune} (h1 : 0x20 ≤ r)
    (h2 : r ≤ 0x7E) (hc : v.col + 1 ≤ v.width) :
    (v.receive adv r).mode = .ground ∧ (v.receive adv r).col = v.col + 1 ∧ (v.receive adv r).width = v.width := by
  unfold Vt.receive
  rw [hm]
  dsimp only
  rw [if_neg (by omega), if_neg (by omega), if_neg (by omega), if_neg (by omega), if_neg (by omega)]
  unfold Vt.print
  rw [ha r h1 h2, if_pos hc]
  exact ⟨hm, rfl, rfl⟩

theorem run_ascii (v : Vt) {b : Bytes} (h : ∀ x ∈ b, x.toNat < 0x80) : v.run adv b = v.feed adv (b.map UInt8.toNat) := by
  have := (Reads.ascii h).run (adv := adv) v []
  rw [List.append_nil] at this
  rw [this]
  unfold Vt.run
  rw [runesOf_nil]
  rfl

theorem lf_settled : Landed adv W [0x0A] := by
  refine ⟨ascii_valid (by decide), fun c _ => ⟨0, by decide, fun v hm _ _ => ?_⟩⟩
  rw [run_ascii v (by decide)]
  show (v.receive adv 0x0A).mode = _ ∧ (v.receive adv 0x0A).col = _
  have : v.receive adv 0x0A = v.newline := by unfold Vt.receive; rw [hm]; rfl
  rw [this, newline_mode, newline_col]
  exact ⟨hm, rfl⟩

theorem clear_settled (hW : 0 < W) : Landed adv W [0x1B, 0x5B, 0x31, 0x3B, 0x31, 0x48, 0x1B, 0x5B, 0x32, 0x4A] := by
  refine ⟨ascii_valid (by decide), fun c _ => ⟨0, by decide, fun v hm hw _ => ?_⟩⟩
  rw [run_ascii v (by decide)]
  have e : ([0x1B, 0x5B, 0x31, 0x3B, 0x31, 0x48, 0x1B, 0x5B, 0x32, 0x4A] : Bytes).map UInt8.toNat =
      ([0x1B, 0x5B] ++ [0x31, 0x3B, 0x31] ++ [0x48]) ++ ([0x1B, 0x5B] ++ [0x32] ++ [0x4A]) := rfl
  rw [e, feed_append, feed_csi hm (by decide) (by decide) (by decide),
    feed_csi (v := v.control _ _) rfl (by decide) (by decide) (by decide)]
  refine ⟨rfl, ?_⟩
  show max 0 (min (max 1 (1 : Int) - 1) (v.width - 1)) = 0
  omega

theorem prompt_settled (ha : ∀ r, 0x20 ≤ r → r ≤ 0x7E → adv r = 1) (hW : 2 ≤ W) (hp : E.prompt = none) {b : Bytes}
    (h : PromptText E b) : Landed adv W b := by
  unfold PromptText at h
  rw [hp] at h
  have key : ∀ (v v1 : Vt), v1.mode = .ground → v1.col = 0 → v1.width = W →
      ((v1.receive adv 0x3E).receive adv 0x20).mode = .ground ∧ ((v1.receive adv 0x3E).receive adv 0x20).col = 2 := by
    intro v v1 hm hc hw
    obtain ⟨a1, a2, a3⟩ := receive_ascii ha hm (r := 0x3E) (by decide) (by decide) (by omega)
    obtain ⟨b1, b2, b3⟩ := receive_ascii ha a1 (r := 0x20) (by decide) (by decide) (by omega)
    exact ⟨b1, by omega⟩
  rcases h with rfl | rfl
  · refine ⟨ascii_valid (by decide), fun c _ => ⟨2, by decide, fun v hm hw _ => ?_⟩⟩
    rw [run_ascii v (by decide)]
    have : v.receive adv 0x0A = v.newline := by unfold Vt.receive; rw [hm]; rfl
    refine key v (v.receive adv 0x0A) ?_ ?_ ?_
    · rw [this, newline_mode]; exact hm
    · rw [this, newline_col]
    · rw [this, newline_width]; exact hw
  · refine ⟨ascii_valid (by decide), fun c _ => ⟨2, by decide, fun v hm hw _ => ?_⟩⟩
    rw [run_ascii v (by decide)]
    have : v.receive adv 0x0D = { v with col := 0 } := by unfold Vt.receive; rw [hm]; rfl
    refine key v (v.receive adv 0x0D) ?_ ?_ ?_
    · rw [this]; exact hm
    · rw [this]
    · rw [this]; exact hw

theorem ordinary_emits {P : Nat → Prop} {c : Int} (hp : ∀ r, P r → Plain E.cfg r) (hc : 0 ≤ c) (hW : c + 1 ≤ W)
    (hpr : ∀ b, PromptText E b → Landed adv W b) : Emits (fun r => P r ∧ isScalar r = true) E c (Simple E adv W) where
  off := trivial
  on := trivial
  flush := trivial
  await := trivial
  erase := trivial
  sgr _ := trivial
  goto := ⟨by omega, hW⟩
  glyph r hr := Or.inl ⟨r, hp r hr.1, hr.2, rfl⟩
  color1 := Or.inl (Or.inl rfl)
  color2 := Or.inl (Or.inr (Or.inl rfl))
  bell := Or.inl (Or.inr (Or.inr (Or.inl rfl)))
  prompt b hb := Or.inr (hpr b hb)
  lf := Or.inr lf_settled
  clear := Or.inr (clear_settled (by omega))

/-! ## From the row to the screen -/

/-- The units of some characters. -/
def plainUnits (C : Cfg) (rs : List Rune) : List Moji := rs.map fun r => rune2moji C r 0

theorem plainUnits_of {C : Cfg} {P : Nat → Prop} {ms : List Moji} (h : ∀ m ∈ ms, ∃ r, P r ∧ m = rune2moji C r 0) :
    ∃ rs, ms = plainUnits C rs ∧ ∀ r ∈ rs, P r := by
  induction ms with
  | nil => exact ⟨[], rfl, by simp⟩
  | cons m ms ih =>
    obtain ⟨r, hr, rfl⟩ := h m (by simp)
    obtain ⟨rs, rfl, hrs⟩ := ih fun x hx => h x (by simp [hx])
    refine ⟨r :: rs, rfl, fun x hx => ?_⟩
    rcases List.mem_cons.mp hx with rfl | hx
    · exact hr
    · exact hrs x hx

theorem plainUnits_text {C : Cfg} {rs : List Rune} (h : ∀ r ∈ rs, isScalar r = true) : runesOf (lineText (plainUnits C rs)) = rs := by
  have e : lineText (plainUnits C rs) = encodeRunes rs := by
    unfold lineText plainUnits encodeRunes
    rw [List.flatMap_map]
    congr 1
    funext r
    exact rune2moji_write C r 0
  rw [e, runesOf_encodeRunes h]

theorem plainUnits_columns {C : Cfg} {rs : List Rune} (h : ∀ r ∈ rs, Plain C r) : columns C (plainUnits C rs) = textColumns C rs := by
  induction rs with
  | nil => rfl
  | cons r rs ih =>
    show (rune2moji C r 0).width C + columns C (plainUnits C rs) = _
    rw [ih fun x hx => h x (by simp [hx]), (plain_columns (h r (by simp))).2.1]
    rfl

theorem plain_rune {C : Cfg} {r : Rune} (h : Plain C r) : (rune2moji C r 0).toRune? = some r := by
  rcases plain_moji h with ⟨-, e⟩ | ⟨-, -, e | e⟩ | ⟨-, -, e⟩ <;> rw [e] <;> rfl

theorem plainUnits_layout {C : Cfg} {rs : List Rune} (h : ∀ r ∈ rs, Plain C r) (hs : ∀ r ∈ rs, isScalar r = true) (top x : Int) :
    layout C (plainUnits C rs) top x ≠ anything ∧ sight adv (layout C (plainUnits C rs) top x) = picture C adv rs top x := by
  induction rs generalizing top with
  | nil => exact ⟨by simp [plainUnits, layout, anything], rfl⟩
  | cons r rs ih =>
    obtain ⟨h1, h2⟩ := ih (fun x hx => h x (by simp [hx])) (fun x hx => hs x (by simp [hx])) (top + plainColumns C r)
    have hw := (plain_columns (h r (by simp))).2.1
    have hr := plain_rune (h r (by simp))
    show (if top ≤ x ∧ x < top + (rune2moji C r 0).width C then some (rune2moji C r 0, x - top)
      else layout C (plainUnits C rs) (top + (rune2moji C r 0).width C) x) ≠ _ ∧ sight adv (if top ≤ x ∧ x < top + (rune2moji C r 0).width C then some (rune2moji C r 0, x - top)
      else layout C (plainUnits C rs) (top + (rune2moji C r 0).width C) x) = if top ≤ x ∧ x < top + plainColumns C r then some (seenOf adv r (x - top)) else _
    rw [hw]
    split
    · refine ⟨fun e => ?_, ?_⟩
      · unfold anything at e
        injection e with e
        have e := (Prod.mk.inj e).1
        rw [e] at hr
        have hr : some 0x110000 = some r := hr
        injection hr with hr
        have := hs r (by simp)
        rw [← hr] at this
        cases this
      · show some (seenOf adv ((rune2moji C r 0).toRune?.getD _) _) = _
        rw [hr]
        rfl
    · exact ⟨h1, h2⟩

theorem prefix_map {α β : Type} {f : α → β} {l : List β} {xs : List α} (h : l <+: xs.map f) :
    ∃ n, l = (xs.take n).map f := by
  obtain ⟨t, e⟩ := h
  refine ⟨l.length, ?_⟩
  rw [List.map_take, ← e, List.take_left]

/-- The row shows the line, so does the screen. -/
theorem Spec.Shows.displays {r : Row} {v : Vt} {P : Nat → Prop} (h : Shows E s r) (hm : Mirrors adv r v)
    (hp : ∀ r, P r → Plain E.cfg r ∧ isScalar r = true) (hu : ∀ m ∈ s.mojis, ∃ r, P r ∧ m = rune2moji E.cfg r 0)
    (hx : ∀ m ∈ s.suffixList, ∃ r, P r ∧ m = rune2moji E.cfg r 0) :
    Spec.Displays E.cfg adv v s.topColumn s.viewWidth (runesOf s.text) s.cursor.toNat (runesOf (lineText s.suffixList)) := by
  obtain ⟨rs, e1, p1⟩ := plainUnits_of hu
  obtain ⟨hs, e2, p2⟩ := plainUnits_of hx
  have t1 : runesOf s.text = rs := by
    have : s.text = lineText s.mojis := by
      show cell2string s.buf = _
      rw [cell2string_eq]
      unfold lineText St.mojis
      rw [List.flatMap_map, List.flatMap_map]
      congr 1
      funext c
      exact Moji.norm_write _
    rw [this, e1, plainUnits_text fun r hr => (hp r (p1 r hr)).2]
  have t2 : runesOf (lineText s.suffixList) = hs := by rw [e2, plainUnits_text fun r hr => (hp r (p2 r hr)).2]
  rw [t1, t2]
  obtain ⟨right, pred, c1, c2, c3, c4, -, c6⟩ := h.cells
  have l0 := h.low
  have l1 := h.mid
  have l2 := h.high
  have hlen : s.len.toNat = rs.length := by
    have : s.mojis.length = rs.length := by rw [e1]; simp [plainUnits]
    unfold St.mojis at this
    rw [List.length_map] at this
    unfold St.len
    omega
  have hb1 : s.between s.viewStart s.cursor = plainUnits E.cfg ((rs.take s.cursor.toNat).drop s.viewStart.toNat) := by
    unfold St.between
    rw [e1]
    simp [plainUnits, List.map_take, List.map_drop]
  have hb2 : s.between s.cursor s.len = plainUnits E.cfg (rs.drop s.cursor.toNat) := by
    unfold St.between
    have hl : (plainUnits E.cfg rs).length = rs.length := by simp [plainUnits]
    rw [e1, hlen, ← hl, List.take_length]
    simp [plainUnits, List.map_drop]
  rw [hb2] at c1 c6
  obtain ⟨n, rfl⟩ := prefix_map c1
  have hpred : ∃ more, pred = plainUnits E.cfg more ∧ (more = [] ∨ s.cursor = s.len ∧ more <+: hs) := by
    rcases c4 with rfl | ⟨c4, c5⟩
    · exact ⟨[], rfl, Or.inl rfl⟩
    · rw [e2] at c5
      obtain ⟨k, rfl⟩ := prefix_map c5
      exact ⟨_, rfl, Or.inr ⟨c4, List.take_prefix _ _⟩⟩
  obtain ⟨more, rfl, hmore⟩ := hpred
  have hall : s.between s.viewStart s.cursor ++ ((rs.drop s.cursor.toNat).take n).map (fun r => rune2moji E.cfg r 0) ++ plainUnits E.cfg more =
      plainUnits E.cfg ((rs.take s.cursor.toNat).drop s.viewStart.toNat ++ (rs.drop s.cursor.toNat).take n ++ more) := by
    rw [hb1]
    simp [plainUnits]
  rw [hall] at c2 c3
  have hmem : ∀ r ∈ (rs.take s.cursor.toNat).drop s.viewStart.toNat ++ (rs.drop s.cursor.toNat).take n ++ more, P r := by
    intro r hr
    rcases List.mem_append.mp hr with hr | hr
    · rcases List.mem_append.mp hr with hr | hr
      · exact p1 r (List.mem_of_mem_take (List.mem_of_mem_drop hr))
      · exact p1 r (List.mem_of_mem_drop (List.mem_of_mem_take hr))
    · rcases hmore with rfl | ⟨-, hm'⟩
      · cases hr
      · exact p2 r (hm'.subset hr)
  rw [plainUnits_columns fun r hr => (hp r (hmem r hr)).1] at c2
  refine ⟨hm.mode, rs.take s.viewStart.toNat, (rs.take s.cursor.toNat).drop s.viewStart.toNat, (rs.drop s.cursor.toNat).take n,
    (rs.drop s.cursor.toNat).drop n, more, ?_, ?_, ?_, c2, ?_, ?_, fun x hx' => ?_⟩
  · have : rs.take s.viewStart.toNat = (rs.take s.cursor.toNat).take s.viewStart.toNat := by
      rw [List.take_take, Nat.min_eq_left (by omega)]
    rw [this, List.take_append_drop, List.append_assoc, List.take_append_drop, List.take_append_drop]
  · have : rs.take s.viewStart.toNat = (rs.take s.cursor.toNat).take s.viewStart.toNat := by
      rw [List.take_take, Nat.min_eq_left (by omega)]
    rw [this, List.take_append_drop, List.length_take]
    omega
  · rcases hmore with rfl | ⟨a, b⟩
    · exact Or.inl rfl
    · refine Or.inr ⟨?_, b⟩
      rw [List.take_append_drop]
      exact List.drop_eq_nil_of_le (by rw [a]; omega)
  · intro k r tail hk hrest
    have hr : r ∈ rs := List.mem_of_mem_drop (List.mem_of_mem_drop (by rw [hrest]; simp))
    have hsame : SameWidths E s := by
      refine ⟨k, fun m hm => ?_⟩
      rw [e1] at hm
      obtain ⟨q, hq, rfl⟩ := List.mem_map.mp hm
      rw [(plain_columns (hp q (p1 q hq)).1).2.1]
      exact hk q hq
    have := c6 hsame (rune2moji E.cfg r 0) (plainUnits E.cfg tail) (by
      have e : rs.drop s.cursor.toNat = (rs.drop s.cursor.toNat).take n ++ r :: tail := by rw [← hrest, List.take_append_drop]
      unfold plainUnits
      rw [← List.map_cons (f := fun r => rune2moji E.cfg r 0), ← List.map_append, ← e])
    rw [hb1, (plain_columns (hp r (p1 r hr)).1).2.1] at this
    have e : plainUnits E.cfg ((rs.take s.cursor.toNat).drop s.viewStart.toNat) ++ ((rs.drop s.cursor.toNat).take n).map (fun r => rune2moji E.cfg r 0) =
        plainUnits E.cfg ((rs.take s.cursor.toNat).drop s.viewStart.toNat ++ (rs.drop s.cursor.toNat).take n) := by
      unfold plainUnits
      rw [List.map_append]
    rw [e, plainUnits_columns fun r hr => (hp r (hmem r (List.mem_append_left _ hr))).1] at this
    exact this
  · rw [hm.col, h.col, hb1, plainUnits_columns fun r hr => (hp r (hmem r (by simp [hr]))).1]
  · obtain ⟨a, b⟩ := plainUnits_layout (adv := adv) (fun r hr => (hp r (hmem r hr)).1) (fun r hr => (hp r (hmem r hr)).2) s.topColumn x
    rw [← b, ← c3 x hx']
    rcases hm.cells x with h' | h'
    · rw [c3 x hx'] at h'
      exact absurd h' a
    · exact h'

/-! ## The property -/

theorem C58_partial {P : Nat → Prop} {v : Vt} (hb : BuiltinKeys E) (ho : Ordinary P E w) (hx : Plainly P E w)
    (hA : AgreesPlain E.cfg adv) (hw : ∀ m : Moji, 0 ≤ m.width E.cfg) (hc1 : Sgr E.predictColor.1)
    (hc2 : Sgr E.predictColor.2) (hpw : 0 ≤ promptWidth E w.promptN) (hpr : ∀ b, PromptText E b → Landed adv v.width b)
    (hm : v.mode = .ground) (hv : 0 ≤ v.col) (hW : w.termWidth ≤ v.width) (hr : ∀ n, .resize n ∈ w.input → n ≤ v.width)
    (h : Reachable E w s) (hk : noResize s.input ≠ []) :
    ∃ t, s.out = w.out ++ t ∧ Spec.Displays E.cfg adv (v.run adv (bytesOf E.cfg t)) (promptWidth E w.promptN)
      (s.termWidth - promptWidth E w.promptN - 3) (runesOf s.text) s.cursor.toNat (runesOf (lineText s.suffixList)) := by
  have htop := (ordinary_easy hb ho.modest h).top
  have hview : s.viewWidth = s.termWidth - promptWidth E w.promptN - 3 := by unfold St.viewWidth; rw [htop]
  rw [← hview, ← htop]
  have hroom := ho.room
  have ho' := ho.scalar
  have hS : Sane E (blur E adv v.width) := blur_sane hw
  have hst := ordinary_steady hb ho
  obtain ⟨t, e, hsh⟩ := session_shows hS hb hst h hk
  obtain ⟨t1, e1, hin⟩ := session_within hS hb hst hW hr h hk
  obtain ⟨⟨t2, e2, hq⟩, hhint⟩ := ordinary_clean hb ho' hx.scalar (ordinary_emits (W := v.width) ho.plain hpw (by omega) hpr) h
  obtain rfl : t = t1 := List.append_cancel_left (e.symm.trans e1)
  obtain rfl : t = t2 := List.append_cancel_left (e.symm.trans e2)
  refine ⟨t, e, ?_⟩
  have hrow : Mirrors adv { col := v.col, cells := fun _ => anything, high := 0 } v := ⟨hm, rfl, hv, fun _ => Or.inl rfl⟩
  have hrun := Mirrors.run hA hc1 hc2 (by omega) hq hrow rfl (by
    have := hin { col := v.col, cells := fun _ => anything, high := 0 }
    have e : max (0 : Int) (v.width - 3) ≤ v.width := by omega
    exact Int.le_trans this e)
  exact (hsh _).displays hrun (fun r hr => ⟨ho.plain r hr.1, hr.2⟩) (ordinary_units hb ho'.sources (fun r hr => ho.plain r hr.1) h) hhint

/-! ### The prompt -/

theorem plainColumns_pos {C : Cfg} {r : Rune} (h : Plain C r) : 1 ≤ plainColumns C r := (plain_columns h).2.2.1

theorem textColumns_nonneg {C : Cfg} {rs : List Rune} (h : ∀ r ∈ rs, Plain C r) : 0 ≤ textColumns C rs := by
  induction rs with
  | nil => exact Int.le_refl 0
  | cons r rs ih =>
    have := plainColumns_pos (h r (by simp))
    have := ih fun x hx => h x (by simp [hx])
    show 0 ≤ plainColumns C r + textColumns C rs
    omega

theorem Spec.Announces.landed {b : Bytes} {ps : List Rune} (hp : ∀ r ∈ ps, Plain E.cfg r) (h : Announces E.cfg adv W b ps) :
    Landed adv W b :=
  ⟨h.1, fun _ hc => ⟨textColumns E.cfg ps, textColumns_nonneg hp, fun v hm hw e =>
    have h1 := h.2 v hm hw (by omega)
    ⟨h1.1, h1.2.1⟩⟩⟩

theorem reads_all (hA : AgreesPlain E.cfg adv) (hc1 : Sgr E.predictColor.1) (hc2 : Sgr E.predictColor.2) (hW : 0 < W)
    {ts : List Tok} (ht : ∀ t ∈ ts, Simple E adv W t) : ∃ rs, Reads (ts.flatMap (Tok.bytes E.cfg)) rs := by
  induction ts with
  | nil => exact ⟨[], Reads.nil⟩
  | cons t ts ih =>
    obtain ⟨rs, h1, -⟩ := Mirrors.receive hA hc1 hc2 hW (ht t (by simp))
    obtain ⟨qs, h2⟩ := ih fun x hx => ht x (by simp [hx])
    exact ⟨rs ++ qs, by rw [List.flatMap_cons]; exact h1.append h2⟩

theorem Reads.cut {b b' : Bytes} {rs : List Rune} (h : Reads b rs) (v : Vt) : v.run adv (b ++ b') = (v.run adv b).run adv b' := by
  have h1 := h.run (adv := adv) v []
  rw [List.append_nil] at h1
  rw [h.run, h1]
  congr 1
  show _ = (runesOf []).foldl _ _
  rw [runesOf_nil]
  rfl

/-- How far printing gets depends on the column alone. -/
theorem row_run_congr (lit : Bytes → Row → Row) (hl : ∀ b r r', r.col = r'.col → r.high = r'.high →
      (lit b r).col = (lit b r').col ∧ (lit b r).high = (lit b r').high) (ts : List Tok) {r r' : Row}
    (h1 : r.col = r'.col) (h2 : r.high = r'.high) :
    (Row.run E.cfg lit r ts).col = (Row.run E.cfg lit r' ts).col ∧ (Row.run E.cfg lit r ts).high = (Row.run E.cfg lit r' ts).high := by
  induction ts generalizing r r' with
  | nil => exact ⟨h1, h2⟩
  | cons t ts ih =>
    have key : (Row.receive E.cfg lit r t).col = (Row.receive E.cfg lit r' t).col ∧
        (Row.receive E.cfg lit r t).high = (Row.receive E.cfg lit r' t).high := by
      cases t with
      | lit b => exact hl b r r' h1 h2
      | glyph m => exact ⟨by show r.col + _ = r'.col + _; rw [h1], by show max r.high (r.col + _) = max r'.high (r'.col + _); rw [h1, h2]⟩
      | gotoCol n => exact ⟨rfl, h2⟩
      | _ => exact ⟨h1, h2⟩
    exact ih key.1 key.2

theorem blur_congr (b : Bytes) (r r' : Row) (h1 : r.col = r'.col) (h2 : r.high = r'.high) :
    (blur E adv W b r).col = (blur E adv W b r').col ∧ (blur E adv W b r).high = (blur E adv W b r').high := by
  unfold blur
  split
  · exact ⟨h1, h2⟩
  · exact ⟨by show landing adv W b r.col = landing adv W b r'.col; rw [h1], h2⟩

/-- Nothing left of the line is touched. -/
theorem hushed_run {P : Nat → Prop} {c : Int} (hw : ∀ m : Moji, 0 ≤ m.width E.cfg) {ts : List Tok}
    (ht : ∀ t ∈ ts, Hushed P E c t) {r : Row} (hr : c ≤ r.col) {x : Int} (hx : x < c) :
    (Row.run E.cfg (blur E adv W) r ts).cells x = r.cells x := by
  induction ts generalizing r with
  | nil => rfl
  | cons t ts ih =>
    have key : c ≤ (Row.receive E.cfg (blur E adv W) r t).col ∧ (Row.receive E.cfg (blur E adv W) r t).cells x = r.cells x := by
      have h1 := ht t (by simp)
      cases t with
      | lit b =>
        have : blur E adv W b r = r := by
          unfold blur
          refine if_pos ?_
          rcases h1 with h | h | h
          · exact Or.inl h
          · exact Or.inr (Or.inl h)
          · exact Or.inr (Or.inr (Or.inl h))
        show c ≤ (blur E adv W b r).col ∧ (blur E adv W b r).cells x = _
        rw [this]
        exact ⟨hr, rfl⟩
      | gotoCol n =>
        have h1 : n = c + 1 := h1
        exact ⟨by show c ≤ n - 1; omega, rfl⟩
      | glyph m =>
        have := hw m
        refine ⟨by show c ≤ r.col + _; omega, ?_⟩
        show (if r.col ≤ x ∧ _ then _ else r.cells x) = _
        rw [if_neg (by omega)]
      | eraseEol =>
        refine ⟨hr, ?_⟩
        show (if x ≥ r.col then none else r.cells x) = _
        rw [if_neg (by omega)]
      | _ => exact ⟨hr, rfl⟩
    exact (ih (fun t ht' => ht t (by simp [ht'])) key.1).trans key.2

theorem signBytes_text (E : Env) (n : Nat) : PromptText E (signBytes E n) := by
  unfold PromptText signBytes
  cases E.prompt with
  | none => exact .inl rfl
  | some p => exact ⟨n, .inl rfl⟩

theorem signAgain_text (E : Env) (n : Nat) : PromptText E (signAgain E n) := by
  unfold PromptText signAgain
  cases E.prompt with
  | none => exact .inr rfl
  | some p => exact ⟨n, .inr rfl⟩

/-- The prompt stays in place, if it is written well wherever it is written. -/
theorem prompt_stays {P : Nat → Prop} {v : Vt} {ps : List Rune} (hb : BuiltinKeys E) (ho : Ordinary P E w) (hx : Plainly P E w)
    (hA : AgreesPlain E.cfg adv) (hw : ∀ m : Moji, 0 ≤ m.width E.cfg) (hc1 : Sgr E.predictColor.1)
    (hc2 : Sgr E.predictColor.2) (hps : ∀ r ∈ ps, Plain E.cfg r ∧ isScalar r = true)
    (hpw : promptWidth E w.promptN = textColumns E.cfg ps) (hland : ∀ b, PromptText E b → Landed adv v.width b)
    (hann : ∀ (u : Vt) (b : Bytes), u.mode = .ground → u.width = v.width → 0 ≤ u.col → (∃ n, b = signAgain E n) ∨
      (∃ n, b = signBytes E n) ∧ (u = v ∨ u.col = 0) → (u.run adv b).col = textColumns E.cfg ps ∧
      ∀ x, 0 ≤ x → x < textColumns E.cfg ps → (u.run adv b).cells (u.run adv b).row x = picture E.cfg adv ps 0 x)
    (hm : v.mode = .ground) (hv : 0 ≤ v.col) (hW : w.termWidth ≤ v.width) (hr : ∀ n, .resize n ∈ w.input → n ≤ v.width)
    (h : Reachable E w s) (hk : noResize s.input ≠ []) :
    ∃ t, s.out = w.out ++ t ∧ Spec.Displays E.cfg adv (v.run adv (bytesOf E.cfg t)) (textColumns E.cfg ps)
      (s.termWidth - textColumns E.cfg ps - 3) (runesOf s.text) s.cursor.toNat (runesOf (lineText s.suffixList)) ∧
      ∀ x, 0 ≤ x → x < textColumns E.cfg ps →
        (v.run adv (bytesOf E.cfg t)).cells (v.run adv (bytesOf E.cfg t)).row x = picture E.cfg adv ps 0 x := by
  have hpl : ∀ r ∈ ps, Plain E.cfg r := fun r hr => (hps r hr).1
  have hnn := textColumns_nonneg hpl
  obtain ⟨t, e, hd⟩ := C58_partial hb ho hx hA hw hc1 hc2 (by rw [hpw]; exact hnn) hland hm hv hW hr h hk
  rw [hpw] at hd
  refine ⟨t, e, hd, fun x hx0 hx1 => ?_⟩
  have hroom := ho.room
  have hW0 : 0 < v.width := by omega
  have hS : Sane E (blur E adv v.width) := blur_sane hw
  obtain ⟨t1, e1, hin⟩ := session_within hS hb (ordinary_steady hb ho) hW hr h hk
  obtain ⟨⟨t2, e2, hq⟩, -⟩ := ordinary_clean hb ho.scalar hx.scalar
    (ordinary_emits (W := v.width) ho.plain (by rw [hpw]; exact hnn) (by omega) hland) h
  obtain rfl : t = t1 := List.append_cancel_left (e.symm.trans e1)
  obtain rfl : t = t2 := List.append_cancel_left (e.symm.trans e2)
  obtain ⟨t1, b, ts, e3, ⟨hbp, hplaced⟩, hts⟩ := ordinary_behind hb ho hx h
  obtain rfl : t = t1 ++ .lit b :: ts := List.append_cancel_left (e.symm.trans e3)
  have hq1 : ∀ t ∈ t1, Simple E adv v.width t := fun t ht => hq t (by simp [ht])
  have hq2 : ∀ t ∈ ts, Simple E adv v.width t := fun t ht => hq t (by simp [ht])
  have hrow : Mirrors adv { col := v.col, cells := fun _ => anything, high := 0 } v := ⟨hm, rfl, hv, fun _ => Or.inl rfl⟩
  have hhigh := hin { col := v.col, cells := fun _ => anything, high := 0 }
  have hlim : max (0 : Int) (v.width - 3) ≤ v.width := by omega
  have hhigh : (Row.run E.cfg (blur E adv v.width) { col := v.col, cells := fun _ => anything, high := 0 } (t1 ++ .lit b :: ts)).high ≤ v.width :=
    Int.le_trans hhigh hlim
  rw [run_append] at hhigh
  generalize hr0 : Row.run E.cfg (blur E adv v.width) { col := v.col, cells := fun _ => anything, high := 0 } t1 = r0 at hhigh
  have hm0 := Mirrors.run hA hc1 hc2 hW0 hq1 hrow rfl (by
    rw [hr0]
    exact Int.le_trans (row_high_run (.lit b :: ts) r0) hhigh)
  rw [hr0] at hm0
  obtain ⟨rs1, hrs1⟩ := reads_all hA hc1 hc2 hW0 hq1
  have hw0 : (v.run adv (t1.flatMap (Tok.bytes E.cfg))).width = v.width := by
    have := hrs1.run (adv := adv) v []
    rw [List.append_nil] at this
    rw [this]
    show ((v.feed adv rs1).run adv []).width = _
    unfold Vt.run
    rw [runesOf_nil]
    exact feed_width ..
  generalize hu0 : v.run adv (t1.flatMap (Tok.bytes E.cfg)) = u0 at hm0 hw0
  have hann := hann u0 b hm0.mode hw0 (by rw [hm0.col]; exact hm0.low) (hplaced.imp id fun ⟨hb, ht⟩ => ⟨hb, ht.imp (fun ht => by
      rw [← hu0, ht]
      show v.run adv [] = v
      unfold Vt.run
      rw [runesOf_nil]
      rfl) fun ⟨t', b', ht, hb'⟩ => by
    have hq3 : ∀ t ∈ t', Simple E adv v.width t := fun t h => hq1 t (by rw [ht]; simp [h])
    obtain ⟨qs, hqs⟩ := reads_all hA hc1 hc2 hW0 hq3
    have hm3 := Mirrors.run hA hc1 hc2 hW0 hq3 hrow rfl (by
      have h1 := Int.le_trans (row_high_run (.lit b :: ts) r0) hhigh
      rw [← hr0, ht, run_append] at h1
      exact Int.le_trans (row_high_run _ _) h1)
    have hw3 : (v.run adv (t'.flatMap (Tok.bytes E.cfg))).width = v.width := by
      have h1 := hqs.run (adv := adv) v []
      rw [List.append_nil] at h1
      rw [h1]
      unfold Vt.run
      rw [runesOf_nil]
      exact feed_width ..
    rw [← hu0, ht, List.flatMap_append, hqs.cut]
    have e : [Tok.lit b', Tok.flush].flatMap (Tok.bytes E.cfg) = b' := by simp [Tok.bytes]
    rw [e]
    have h3c : 0 ≤ (v.run adv (t'.flatMap (Tok.bytes E.cfg))).col := by rw [hm3.col]; exact hm3.low
    rcases hb' with rfl | rfl
    · rw [run_ascii _ (by decide)]
      show ((v.run adv (t'.flatMap (Tok.bytes E.cfg))).receive adv 0x0A).col = 0
      have : (v.run adv (t'.flatMap (Tok.bytes E.cfg))).receive adv 0x0A = (v.run adv (t'.flatMap (Tok.bytes E.cfg))).newline := by
        unfold Vt.receive; rw [hm3.mode]; rfl
      rw [this, newline_col]
    · rw [run_ascii _ (by decide)]
      have e : ([0x1B, 0x5B, 0x31, 0x3B, 0x31, 0x48, 0x1B, 0x5B, 0x32, 0x4A] : Bytes).map UInt8.toNat =
          ([0x1B, 0x5B] ++ [0x31, 0x3B, 0x31] ++ [0x48]) ++ ([0x1B, 0x5B] ++ [0x32] ++ [0x4A]) := rfl
      rw [e, feed_append, feed_csi hm3.mode (by decide) (by decide) (by decide),
        feed_csi (v := Vt.control _ _ _) rfl (by decide) (by decide) (by decide)]
      show max 0 (min (max 1 (1 : Int) - 1) ((v.run adv (t'.flatMap (Tok.bytes E.cfg))).width - 1)) = 0
      rw [hw3]
      omega⟩)
  have hfin : v.run adv (bytesOf E.cfg (t1 ++ .lit b :: ts)) = (u0.run adv b).run adv (ts.flatMap (Tok.bytes E.cfg)) := by
    unfold bytesOf
    rw [List.flatMap_append, hrs1.cut, hu0, List.flatMap_cons]
    exact (Reads.valid (hland b hbp).1).cut u0
  rw [hfin]
  have hhigh : (Row.run E.cfg (blur E adv v.width) (Row.receive E.cfg (blur E adv v.width) r0 (.lit b)) ts).high ≤ v.width := hhigh
  have hm1 := Mirrors.run hA hc1 hc2 hW0 (ts := [.lit b]) (fun t ht => hq t (by simp at ht; simp [ht])) hm0 hw0
    (Int.le_trans (row_high_run ts _) hhigh)
  have e1 : [Tok.lit b].flatMap (Tok.bytes E.cfg) = b := by simp [Tok.bytes]
  rw [e1] at hm1
  have hw1 : (u0.run adv b).width = v.width := by
    have h1 := (Reads.valid (hland b hbp).1).run (adv := adv) u0 []
    rw [List.append_nil] at h1
    rw [h1]
    unfold Vt.run
    rw [runesOf_nil]
    exact (feed_width ..).trans hw0
  generalize hr1 : Row.receive E.cfg (blur E adv v.width) r0 (.lit b) = r1 at hhigh
  have hm1 : Mirrors adv r1 (u0.run adv b) := by rw [← hr1]; exact hm1
  have hc : textColumns E.cfg ps = r1.col := by rw [← hm1.col]; exact hann.1.symm
  obtain ⟨r2, hr2c, hr2h, hr2⟩ : ∃ r2 : Row, r2.col = r1.col ∧ r2.high = r1.high ∧ r2.cells =
      fun x => (if 0 ≤ x ∧ x < textColumns E.cfg ps then layout E.cfg (plainUnits E.cfg ps) 0 x else anything) :=
    ⟨⟨r1.col, fun x => (if 0 ≤ x ∧ x < textColumns E.cfg ps then layout E.cfg (plainUnits E.cfg ps) 0 x else anything), r1.high⟩, rfl, rfl, rfl⟩
  have hm2 : Mirrors adv r2 (u0.run adv b) := by
    refine ⟨hm1.mode, hr2c ▸ hm1.col, hr2c ▸ hm1.low, fun x => ?_⟩
    rw [hr2]
    dsimp only
    split
    · rename_i hx
      refine Or.inr ?_
      rw [hann.2 x hx.1 hx.2]
      exact (plainUnits_layout hpl (fun r hr => (hps r hr).2) 0 x).2.symm
    · exact Or.inl rfl
  have hm3 := Mirrors.run hA hc1 hc2 hW0 hq2 hm2 hw1 (by
    rw [(row_run_congr (r' := r1) _ blur_congr ts hr2c hr2h).2]
    exact hhigh)
  have hcell := hm3.cells x
  rw [hushed_run hw (fun t ht => by have := hts t ht; rw [hpw] at this; exact this) (Int.le_of_eq (hc.trans hr2c.symm)) hx1, hr2] at hcell
  dsimp only at hcell
  rw [if_pos ⟨hx0, hx1⟩] at hcell
  obtain ⟨a1, a2⟩ := plainUnits_layout (adv := adv) hpl (fun r hr => (hps r hr).2) 0 x
  rw [← a2]
  exact hcell.resolve_left a1

/-- The prompt stays in place: the row begins with its characters. -/
theorem C58_prompt_partial {P : Nat → Prop} {v : Vt} {ps : List Rune} (hb : BuiltinKeys E) (ho : Ordinary P E w) (hx : Plainly P E w)
    (hA : AgreesPlain E.cfg adv) (hw : ∀ m : Moji, 0 ≤ m.width E.cfg) (hc1 : Sgr E.predictColor.1)
    (hc2 : Sgr E.predictColor.2) (hps : ∀ r ∈ ps, Plain E.cfg r ∧ isScalar r = true)
    (hpw : promptWidth E w.promptN = textColumns E.cfg ps) (hpr : ∀ b, PromptText E b → Announces E.cfg adv v.width b ps)
    (hm : v.mode = .ground) (hv : 0 ≤ v.col) (hW : w.termWidth ≤ v.width) (hr : ∀ n, .resize n ∈ w.input → n ≤ v.width)
    (h : Reachable E w s) (hk : noResize s.input ≠ []) :
    ∃ t, s.out = w.out ++ t ∧ Spec.Displays E.cfg adv (v.run adv (bytesOf E.cfg t)) (textColumns E.cfg ps)
      (s.termWidth - textColumns E.cfg ps - 3) (runesOf s.text) s.cursor.toNat (runesOf (lineText s.suffixList)) ∧
      ∀ x, 0 ≤ x → x < textColumns E.cfg ps →
        (v.run adv (bytesOf E.cfg t)).cells (v.run adv (bytesOf E.cfg t)).row x = picture E.cfg adv ps 0 x :=
  prompt_stays hb ho hx hA hw hc1 hc2 hps hpw (fun b hb => (hpr b hb).landed fun r hr => (hps r hr).1)
    (fun u b h1 h2 h3 h4 => ((hpr b (by
      rcases h4 with ⟨n, rfl⟩ | ⟨⟨n, rfl⟩, -⟩
      · exact signAgain_text E n
      · exact signBytes_text E n)).2 u h1 h2 h3).2) hm hv hW hr h hk

/-- **Any prompt** that shows `S` when it is written at the beginning of a row, or that goes to the next row. -/
theorem C58_sign_partial {P : Nat → Prop} {v : Vt} {S : Sign} (hb : BuiltinKeys E) (ho : Ordinary P E w) (hx : Plainly P E w)
    (hA : AgreesPlain E.cfg adv) (hw : ∀ m : Moji, 0 ≤ m.width E.cfg) (hc1 : Sgr E.predictColor.1)
    (hc2 : Sgr E.predictColor.2) (hS : S.Of E adv v.width) (hm : v.mode = .ground) (hv : 0 ≤ v.col) (hd : S.down = true ∨ v.col = 0)
    (hW : w.termWidth ≤ v.width) (hr : ∀ n, .resize n ∈ w.input → n ≤ v.width)
    (h : Reachable E w s) (hk : noResize s.input ≠ []) :
    ∃ t, s.out = w.out ++ t ∧ Spec.Displays E.cfg adv (v.run adv (bytesOf E.cfg t)) (S.columns E.cfg)
      (s.termWidth - S.columns E.cfg - 3) (runesOf s.text) s.cursor.toNat (runesOf (lineText s.suffixList)) ∧
      S.At E.cfg adv (v.run adv (bytesOf E.cfg t)) (v.run adv (bytesOf E.cfg t)).row := by
  refine prompt_stays hb ho hx hA hw hc1 hc2 hS.plain (hS.width _) hS.text (fun u b h1 h2 h3 h4 => ?_) hm hv hW hr h hk
  rcases h4 with ⟨n, rfl⟩ | ⟨⟨n, rfl⟩, h4⟩
  · obtain ⟨-, -, a1, -, a2, a3⟩ := hS.again n u h1 h2 h3
    exact ⟨a2, a1 ▸ a3⟩
  · obtain ⟨-, -, a1, -, a2, a3⟩ := hS.first n u h1 h2 h3 (h4.elim (fun h4 => h4 ▸ hd) .inr)
    exact ⟨a2, a1 ▸ a3⟩

/-- The default prompt. -/
theorem prompt_announces (ha : ∀ r, 0x20 ≤ r → r ≤ 0x7E → adv r = 1) (hp1 : plainColumns E.cfg 0x3E = 1) (hp2 : plainColumns E.cfg 0x20 = 1)
    (hW : 2 ≤ W) (hp : E.prompt = none) {b : Bytes} (h : PromptText E b) : Announces E.cfg adv W b [0x3E, 0x20] := by
  unfold PromptText at h
  rw [hp] at h
  have hcols : textColumns E.cfg [0x3E, 0x20] = 2 := by
    show plainColumns E.cfg 0x3E + (plainColumns E.cfg 0x20 + 0) = 2
    omega
  have put : ∀ (v1 : Vt) (r : Rune), 0x20 ≤ r → r ≤ 0x7E → v1.mode = .ground → v1.col + 1 ≤ v1.width → v1.receive adv r = v1.put 1 r := by
    intro v1 r h1 h2 hm hw
    unfold Vt.receive
    rw [hm]
    dsimp only
    rw [if_neg (by omega), if_neg (by omega), if_neg (by omega), if_neg (by omega), if_neg (by omega)]
    unfold Vt.print
    rw [ha r h1 h2, if_pos hw]
  have key : ∀ v1 : Vt, v1.mode = .ground → v1.col = 0 → v1.width = W → ∀ v2, v2 = (v1.receive adv 0x3E).receive adv 0x20 →
      v2.mode = .ground ∧ v2.col = textColumns E.cfg [0x3E, 0x20] ∧
      ∀ x, 0 ≤ x → x < textColumns E.cfg [0x3E, 0x20] → v2.cells v2.row x = picture E.cfg adv [0x3E, 0x20] 0 x := by
    intro v1 hm hc hw v2 e
    rw [put v1 0x3E (by decide) (by decide) hm (by omega), put (v1.put 1 0x3E) 0x20 (by decide) (by decide) hm
      (by show v1.col + 1 + 1 ≤ v1.width; omega)] at e
    subst e
    refine ⟨hm, by rw [hcols]; show v1.col + 1 + 1 = 2; omega, fun x h0 h1 => ?_⟩
    rw [hcols] at h1
    show (if v1.row = v1.row ∧ v1.col + 1 ≤ x ∧ x < v1.col + 1 + 1 then some (0x20, x - (v1.col + 1)) else
      if v1.row = v1.row ∧ v1.col ≤ x ∧ x < v1.col + 1 then some (0x3E, x - v1.col) else v1.cells v1.row x) =
      if 0 ≤ x ∧ x < 0 + plainColumns E.cfg 0x3E then some (seenOf adv 0x3E (x - 0)) else
      if 0 + plainColumns E.cfg 0x3E ≤ x ∧ x < 0 + plainColumns E.cfg 0x3E + plainColumns E.cfg 0x20 then
        some (seenOf adv 0x20 (x - (0 + plainColumns E.cfg 0x3E))) else none
    have s1 : seenOf adv 0x3E 0 = (0x3E, 0) := by
      unfold seenOf
      rw [if_neg (by decide), if_pos (by rw [ha _ (by decide) (by decide)]; decide)]
    have s2 : seenOf adv 0x20 0 = (0x20, 0) := by
      unfold seenOf
      rw [if_neg (by decide), if_pos (by rw [ha _ (by decide) (by decide)]; decide)]
    rw [hp1, hp2, hc]
    by_cases hx : x = 0
    · subst hx
      rw [if_neg (by omega), if_pos (by omega), if_pos (by omega)]
      exact congrArg some s1.symm
    · obtain rfl : x = 1 := by omega
      rw [if_pos (by omega), if_neg (by omega), if_pos (by omega)]
      exact congrArg some s2.symm
  rcases h with rfl | rfl
  · refine ⟨ascii_valid (by decide), fun v hm hw _ => ?_⟩
    have e : v.receive adv 0x0A = v.newline := by unfold Vt.receive; rw [hm]; rfl
    refine key (v.receive adv 0x0A) ?_ ?_ ?_ _ (run_ascii v (by decide))
    · rw [e, newline_mode]; exact hm
    · rw [e, newline_col]
    · rw [e, newline_width]; exact hw
  · refine ⟨ascii_valid (by decide), fun v hm hw _ => ?_⟩
    have e : v.receive adv 0x0D = { v with col := 0 } := by unfold Vt.receive; rw [hm]; rfl
    refine key (v.receive adv 0x0D) ?_ ?_ ?_ _ (run_ascii v (by decide))
    · rw [e]; exact hm
    · rw [e]
    · rw [e]; exact hw

/-- The same for any class of ordinary characters that has the printable ASCII ones. -/
theorem bound_display {P : Nat → Prop} {v : Vt} (hb : BuiltinKeys E) (hcm : ∀ q K, .key q ∈ w.input → lookupCommand E q ≠ .completion K)
    (hp : E.prompt = none) (ho : Ordinary P E w)
    (hc1 : Sgr E.predictColor.1) (hc2 : Sgr E.predictColor.2)
    (hA : AgreesPlain E.cfg adv) (ha : ∀ r, 0x20 ≤ r → r ≤ 0x7E → P r) (h1 : ∀ r, 0 ≤ E.cfg.width r)
    (h2 : ∀ a b, 0 ≤ a → 0 ≤ b → 0 ≤ E.cfg.zwjWidth a b)
    (hi : ∀ k, .key k ∈ w.input → isControlRune (decodeRune k).1 = true ∨ P (decodeRune k).1)
    (hw : 7 < w.termWidth)
    (hm : v.mode = .ground) (hv : 0 ≤ v.col) (hW : w.termWidth ≤ v.width) (hR : ∀ n, .resize n ∈ w.input → n ≤ v.width)
    {s : St} (h : Reachable E w s) (hk' : noResize s.input ≠ []) : ∃ t, s.out = w.out ++ t ∧
      Spec.Displays E.cfg adv (v.run adv (bytesOf E.cfg t)) 2 (s.termWidth - 5) (runesOf s.text) s.cursor.toNat
        (runesOf (lineText s.suffixList)) ∧
      (v.run adv (bytesOf E.cfg t)).cells (v.run adv (bytesOf E.cfg t)).row 0 = some (0x3E, 0) ∧
      (v.run adv (bytesOf E.cfg t)).cells (v.run adv (bytesOf E.cfg t)).row 1 = some (0x20, 0) := by
  have hcol : ∀ r, 0x20 ≤ r → r ≤ 0x7E → plainColumns E.cfg r = 1 := by
    intro r q1 q2
    rw [← hA.plain r (ho.plain r (ha r q1 q2)) q1 (fun hq => by
      rcases hq with hq | hq | hq
      · have := hq.1; omega
      · have := hq.1; omega
      · omega), hA.ascii r q1 q2]
  have hc2' : textColumns E.cfg [0x3E, 0x20] = 2 := by
    show plainColumns E.cfg 0x3E + (plainColumns E.cfg 0x20 + 0) = 2
    rw [hcol _ (by decide) (by decide), hcol _ (by decide) (by decide)]
    rfl
  have hpw : promptWidth E w.promptN = textColumns E.cfg [0x3E, 0x20] := by rw [hc2']; unfold promptWidth; rw [hp]
  have hd := C58_prompt_partial (ps := [0x3E, 0x20]) hb ho ⟨fun q _ _ => ⟨fun r hr => ?_, hi⟩, fun q K hq hc' => absurd hc' (hcm q K hq)⟩
    hA (width_nonneg h1 h2) hc1 hc2 (fun r hr => ?_) hpw
    (fun b hb => prompt_announces hA.ascii (hcol _ (by decide) (by decide)) (hcol _ (by decide) (by decide)) (by omega) hp hb) hm hv hW hR h hk'
  · obtain ⟨t, e, hd, hl⟩ := hd
    rw [hc2'] at hd hl
    have e5 : s.termWidth - 5 = s.termWidth - 2 - 3 := by omega
    rw [e5]
    refine ⟨t, e, hd, ?_, ?_⟩
    · rw [hl 0 (by decide) (by decide)]
      show (if (0 : Int) ≤ 0 ∧ 0 < 0 + plainColumns E.cfg 0x3E then some (seenOf adv 0x3E (0 - 0)) else _) = _
      rw [hcol _ (by decide) (by decide), if_pos (by decide)]
      show some (seenOf adv 0x3E 0) = _
      unfold seenOf
      rw [if_neg (by decide), if_pos (by rw [hA.ascii _ (by decide) (by decide)]; decide)]
    · rw [hl 1 (by decide) (by decide)]
      show (if (0 : Int) ≤ 1 ∧ 1 < 0 + plainColumns E.cfg 0x3E then _ else
        if 0 + plainColumns E.cfg 0x3E ≤ 1 ∧ 1 < 0 + plainColumns E.cfg 0x3E + plainColumns E.cfg 0x20 then
          some (seenOf adv 0x20 (1 - (0 + plainColumns E.cfg 0x3E))) else _) = _
      rw [hcol _ (by decide) (by decide), hcol _ (by decide) (by decide), if_neg (by decide), if_pos (by decide)]
      show some (seenOf adv 0x20 0) = _
      unfold seenOf
      rw [if_neg (by decide), if_pos (by rw [hA.ascii _ (by decide) (by decide)]; decide)]
  · have : ∀ r ∈ searchHead, 0x20 ≤ r ∧ r ≤ 0x7E := by decide
    exact ha r (this r hr).1 (this r hr).2
  · have : ∀ r ∈ [0x3E, 0x20], 0x20 ≤ r ∧ r ≤ 0x7E ∧ isScalar r = true := by decide
    exact ⟨ho.plain r (ha r (this r hr).1 (this r hr).2.1), (this r hr).2.2⟩

/-- With the default keys and the default prompt, printable ASCII or other ordinary characters in the
texts and in the keys, and a terminal of at least eight columns: any sequence of keys but Ctrl-T makes
`ReadLine` return, and whenever it waits for a key the terminal shows the prompt and the line from column 2 on. -/
theorem C58_texts_partial {v : Vt} (hk : E.keyMap = none) (hg : E.globalKeyMap = defaultGlobalKeyMap)
    (hq : E.predictor = none) (hc : E.clipSet = fun _ t => some t) (hp : E.prompt = none) (hn : E.promptErr = none)
    (hc1 : Sgr E.predictColor.1) (hc2 : Sgr E.predictColor.2)
    (hA : AgreesPlain E.cfg adv) (ha : ∀ r, 0x20 ≤ r → r ≤ 0x7E → Plain E.cfg r) (h1 : ∀ r, 0 ≤ E.cfg.width r)
    (h2 : ∀ a b, 0 ≤ a → 0 ≤ b → 0 ≤ E.cfg.zwjWidth a b)
    (ht : ∀ t, t = E.default ∨ t ∈ E.history ∨ w.clip = some t ∨ FromKey E w t → Over (Plain E.cfg) t)
    (hi : ∀ k, .key k ∈ w.input → isControlRune (decodeRune k).1 = true ∨ Plain E.cfg (decodeRune k).1)
    (hs : .key [0x14] ∉ w.input) (he : ∀ e, Ev.err e ∉ w.input.dropLast)
    (hw : 7 < w.termWidth) (hr : ∀ n, .resize n ∈ w.input → 7 < n) (hcur : 0 ≤ w.cursor)
    (hm : v.mode = .ground) (hv : 0 ≤ v.col) (hW : w.termWidth ≤ v.width) (hR : ∀ n, .resize n ∈ w.input → n ≤ v.width) :
    (∃ s r, readLine E w = .ok (s, r)) ∧
    ∀ s, Reachable E w s → noResize s.input ≠ [] → ∃ t, s.out = w.out ++ t ∧
      Spec.Displays E.cfg adv (v.run adv (bytesOf E.cfg t)) 2 (s.termWidth - 5) (runesOf s.text) s.cursor.toNat
        (runesOf (lineText s.suffixList)) ∧
      (v.run adv (bytesOf E.cfg t)).cells (v.run adv (bytesOf E.cfg t)).row 0 = some (0x3E, 0) ∧
      (v.run adv (bytesOf E.cfg t)).cells (v.run adv (bytesOf E.cfg t)).row 1 = some (0x20, 0) := by
  have h22 : Plain E.cfg 0x22 := ha _ (by decide) (by decide)
  refine ⟨C01_texts_partial hk hg hq hc hp ht h22 hs hw hr hcur, fun s h hk' => ?_⟩
  have ho := ordinary_texts hk hg hq hc hp hn ht h22 hs he hw hr
  have hb : BuiltinKeys E := by
    intro k f h
    refine defaultKeys_builtin E.cfg k f ?_
    rw [← h]
    unfold lookupCommand
    rw [hk, hg]
    rfl
  exact bound_display hb (fun _ _ _ => env_completion hk hg) hp ho hc1 hc2 hA ha h1 h2 hi hw hm hv hW hR h hk'

/-! ## Tabs -/

/-- An ordinary character or a tab. -/
def Tabbish (C : Cfg) (m : Moji) : Prop := (∃ r, Plain C r ∧ isScalar r = true ∧ m = rune2moji C r 0) ∨ ∃ p, m = .tab p

def tabRune (m : Moji) : Rune := m.toRune?.getD 9

/-- A unit over ordinary characters and tabs is one of them. -/
theorem built_tabbish {C : Cfg} {P : Nat → Prop} {m : Moji} (hm : Built C m.norm) (hp : ∀ r, P r → ¬ Joins C r ∧ (r = 9 ∨ Plain C r))
    (ho : Over P m.write) : Tabbish C m := by
  have ho : Over P m.norm.write := by rw [Moji.norm_write]; exact ho
  generalize hn : m.norm = n at hm ho
  cases hm with
  | @base r h =>
    rw [Moji.norm_write, rune2moji_write] at ho
    rcases (hp r (over_encode h ho)).2 with rfl | hr
    · right
      cases m with
      | tab p => exact ⟨p, rfl⟩
      | _ => cases hn
    · left
      have hs := (plain_columns hr).1
      have e : (rune2moji C r 0).norm = rune2moji C r 0 := by
        revert hs
        cases rune2moji C r 0 <;> intro hs <;> first | rfl | cases hs
      rw [e] at hn
      refine ⟨r, hr, h, ?_⟩
      rw [← hn, single_norm]
      rw [hn]
      exact hs
  | @zwj m n hz hm _ =>
    have h1 : Over P (m.write ++ encodeRune zwjRune) := ((over_append (ValidUtf8.append hm.valid (validUtf8_encodeRune _))).mp ho).1
    have h2 := over_encode (by decide) ((over_append hm.valid).mp h1).2
    exact absurd (Or.inl ⟨hz, Or.inr rfl⟩) (hp _ h2).1
  | @vari m r hm hr hz hv =>
    have h2 := over_encode hr ((over_append hm.valid).mp ho).2
    unfold isVariationSelectorLike at hv
    rw [Bool.and_eq_true] at hv
    exact absurd (Or.inr (Or.inl hv)) (hp _ h2).1
  | @modi m r hm hr _ _ hv =>
    have h2 := over_encode hr ((over_append hm.valid).mp ho).2
    unfold isEmojiModifier at hv
    simp only [Bool.and_eq_true, decide_eq_true_eq] at hv
    exact absurd (Or.inr (Or.inr hv)) (hp _ h2).1

theorem tabbish_text {C : Cfg} {ms : List Moji} (h : ∀ m ∈ ms, Tabbish C m) : runesOf (lineText ms) = ms.map tabRune := by
  have hs : ∀ r ∈ ms.map tabRune, isScalar r = true := by
    intro r hr
    obtain ⟨m, hm, rfl⟩ := List.mem_map.mp hr
    rcases h m hm with ⟨r, hp, hs, rfl⟩ | ⟨p, rfl⟩
    · unfold tabRune; rw [plain_rune hp]; exact hs
    · exact (by decide : isScalar 9 = true)
  have e : lineText ms = encodeRunes (ms.map tabRune) := by
    clear hs
    induction ms with
    | nil => rfl
    | cons m ms ih =>
      have := ih fun x hx => h x (by simp [hx])
      show m.write ++ lineText ms = encodeRune (tabRune m) ++ encodeRunes (ms.map tabRune)
      rw [this]
      congr 1
      rcases h m (by simp) with ⟨r, hp, hs, rfl⟩ | ⟨p, rfl⟩
      · unfold tabRune; rw [plain_rune hp, rune2moji_write]; rfl
      · rfl
  rw [e, runesOf_encodeRunes hs]

/-- Tabs that stand where they should, from column `k` on. -/
def AlignedAt (C : Cfg) (k : Int) (ms : List Moji) : Prop :=
  ∀ pre p post, ms = pre ++ .tab p :: post → p = toInt16 (k + columns C pre)

theorem AlignedAt.tail {C : Cfg} {k : Int} {m : Moji} {ms : List Moji} (h : AlignedAt C k (m :: ms)) :
    AlignedAt C (k + m.width C) ms := by
  intro pre p post e
  have := h (m :: pre) p post (by rw [e]; rfl)
  rw [this]
  show toInt16 (k + (m.width C + columns C pre)) = _
  rw [Int.add_assoc]

theorem tabbish_width {C : Cfg} {k : Int} {m : Moji} {ms : List Moji} (hm : Tabbish C m) (ha : AlignedAt C k (m :: ms))
    (h0 : 0 ≤ k) (h1 : k ≤ 32767) : m.width C = columnsAt C k (tabRune m) ∧ 1 ≤ m.width C := by
  rcases hm with ⟨r, hp, hs, rfl⟩ | ⟨p, rfl⟩
  · unfold tabRune columnsAt
    rw [plain_rune hp]
    show _ = (if r = 9 then _ else _) ∧ _
    have := plain_columns hp
    rw [if_neg hp.noTab, this.2.1]
    exact ⟨rfl, this.2.2.1⟩
  · have := ha [] p ms rfl
    rw [show columns C [] = 0 from rfl, Int.add_zero, toInt16_small h0 h1] at this
    subst this
    show 4 - Int.tmod p 4 = 4 - p % 4 ∧ 1 ≤ 4 - Int.tmod p 4
    rw [Int.tmod_eq_emod_of_nonneg h0]
    omega

theorem tabbish_layout {C : Cfg} (hw : ∀ m : Moji, 0 ≤ m.width C) (a1 : adv 0x20 = 1) {ms : List Moji} {k : Int} (h : ∀ m ∈ ms, Tabbish C m) (ha : AlignedAt C k ms)
    (h0 : 0 ≤ k) (h1 : k + columns C ms ≤ 32767) (top x : Int) :
    0 ≤ columns C ms ∧ k + columns C ms = columnBehind C k (ms.map tabRune) ∧
    layout C ms (top + k) (top + x) ≠ anything ∧ sight adv (layout C ms (top + k) (top + x)) = tabPicture C adv (ms.map tabRune) k x := by
  induction ms generalizing k with
  | nil => exact ⟨Int.le_refl 0, by show k + 0 = k; omega, by simp [layout, anything], rfl⟩
  | cons m ms ih =>
    have hc : columns C (m :: ms) = m.width C + columns C ms := rfl
    rw [hc] at h1 ⊢
    have hle : k ≤ 32767 := by
      have := hw m
      have := (Wide0.columns (fun x _ => hw x) : 0 ≤ columns C ms)
      omega
    obtain ⟨w1, w2⟩ := tabbish_width (h m (by simp)) ha h0 hle
    obtain ⟨i1, i2, i3, i4⟩ := ih (k := k + m.width C) (fun x hx => h x (by simp [hx])) ha.tail (by omega) (by omega)
    refine ⟨by omega, ?_, ?_⟩
    · show _ = columnBehind C (k + columnsAt C k (tabRune m)) (ms.map tabRune)
      rw [← w1, ← i2]; omega
    · show (if top + k ≤ top + x ∧ top + x < top + k + m.width C then some (m, top + x - (top + k)) else
          layout C ms (top + k + m.width C) (top + x)) ≠ _ ∧
        sight adv (if top + k ≤ top + x ∧ top + x < top + k + m.width C then some (m, top + x - (top + k)) else
          layout C ms (top + k + m.width C) (top + x)) =
        if k ≤ x ∧ x < k + columnsAt C k (tabRune m) then
          some (if tabRune m = 9 then (0x20, 0) else seenOf adv (tabRune m) (x - k))
        else tabPicture C adv (ms.map tabRune) (k + columnsAt C k (tabRune m)) x
      rw [← w1]
      by_cases hx : k ≤ x ∧ x < k + m.width C
      · rw [if_pos (by omega), if_pos hx, show top + x - (top + k) = x - k by omega]
        rcases h m (by simp) with ⟨r, hp, hs, rfl⟩ | ⟨p, rfl⟩
        · refine ⟨fun e => ?_, ?_⟩
          · unfold anything at e
            injection e with e
            have e := (Prod.mk.inj e).1
            have hr := plain_rune hp
            rw [e] at hr
            have hr : some 0x110000 = some r := hr
            injection hr with hr
            rw [← hr] at hs
            cases hs
          · show some (seenOf adv ((rune2moji C r 0).toRune?.getD _) _) = _
            unfold tabRune
            rw [plain_rune hp]
            show _ = some (if r = 9 then _ else _)
            rw [if_neg hp.noTab]
            rfl
        · refine ⟨fun e => ?_, ?_⟩
          · unfold anything at e
            injection e with e
            have e := (Prod.mk.inj e).1
            cases e
          · show some (seenOf adv 0x20 _) = some (if (9 : Nat) = 9 then _ else _)
            rw [if_pos rfl]
            unfold seenOf
            rw [if_neg (by decide), a1]
            split
            · rw [show x - k = 0 by omega]
            · rfl
      · rw [if_neg (by omega), if_neg hx, Int.add_assoc]
        exact ⟨i3, i4⟩

theorem tabular_permits {P : Nat → Prop} (ho : Tabular P E w) (hW : 0 < W)
    (hpr : ∀ b, PromptText E b → Landed adv W b) :
    Permits P E (fun t => (∀ n, t ≠ .gotoCol n) → Simple E adv W t) where
  off _ := trivial
  on _ := trivial
  flush _ := trivial
  await _ := trivial
  erase _ := trivial
  sgr _ _ := trivial
  goto n h := absurd rfl (h n)
  glyph m hb hov _ := built_tabbish hb ho.plain hov
  color1 _ := Or.inl (Or.inl rfl)
  color2 _ := Or.inl (Or.inr (Or.inl rfl))
  bell _ := Or.inl (Or.inr (Or.inr (Or.inl rfl)))
  prompt b hb _ := Or.inr (hpr b hb)
  promptErr e he := by rw [ho.written] at he; cases he
  lf _ := Or.inr lf_settled
  clear _ := Or.inr (clear_settled hW)
  box k K f l hk hf := by rw [ho.box k K hk] at hf; cases hf

/-- A line with tabs that always fits: the terminal shows all of it. -/
theorem C58_tabs_partial {P : Nat → Prop} {v : Vt} (hb : BuiltinKeys E) (ho : Tabular P E w) (hu : Unscrolled E w)
    (hA : AgreesPlain E.cfg adv) (hw : ∀ m : Moji, 0 ≤ m.width E.cfg) (hc2 : Sgr E.predictColor.2)
    (hpw : 0 ≤ promptWidth E w.promptN) (hpr : ∀ b, PromptText E b → Landed adv v.width b)
    (hm : v.mode = .ground) (hv : 0 ≤ v.col) (hW : w.termWidth ≤ v.width) (hr : ∀ n, .resize n ∈ w.input → n ≤ v.width)
    (hmax : v.width ≤ 32767) (h : Reachable E w s) (hk : noResize s.input ≠ []) :
    ∃ t, s.out = w.out ++ t ∧ DisplaysAll E.cfg adv (v.run adv (bytesOf E.cfg t)) (promptWidth E w.promptN) (runesOf s.text)
      s.cursor.toNat := by
  have hroom := ho.room
  have hS : Sane E (blur E adv v.width) := blur_sane hw
  obtain ⟨t, e, hsh⟩ := session_entire hS hb hu h hk
  obtain ⟨t1, e1, hin⟩ := session_within_tabs hS hb hu hW hr h hk
  obtain ⟨⟨t2, e2, hq⟩, -⟩ := session_written hb ho.sources ho.search (tabular_permits (adv := adv) (W := v.width) ho (by omega) hpr) h
  obtain ⟨htop, t3, e3, hq3⟩ := reachable_homing (BuiltinKeys.builtin hb) ho.prompt ho.written (by omega) h
  obtain rfl : t = t1 := List.append_cancel_left (e.symm.trans e1)
  obtain rfl : t = t2 := List.append_cancel_left (e.symm.trans e2)
  obtain rfl : t = t3 := List.append_cancel_left (e.symm.trans e3)
  refine ⟨t, e, ?_⟩
  have hrow : Mirrors adv { col := v.col, cells := fun _ => anything, high := 0 } v := ⟨hm, rfl, hv, fun _ => Or.inl rfl⟩
  have hsimple : ∀ x ∈ t, Simple E adv v.width x := by
    intro x hx
    have h1 := hq3 x hx
    have h2 := hq x hx
    cases x with
    | gotoCol n =>
      have h1 : n = _ := h1
      exact ⟨by omega, by omega⟩
    | _ => exact h2 (fun n e => by cases e)
  have hrun := Mirrors.run hA (hu.predict ▸ Or.inl rfl) hc2 (by omega) hsimple hrow rfl (by
    have := hin { col := v.col, cells := fun _ => anything, high := 0 }
    have e : max (0 : Int) (v.width - 3) ≤ v.width := by omega
    exact Int.le_trans this e)
  have hE := hsh { col := v.col, cells := fun _ => anything, high := 0 }
  generalize Row.run E.cfg (blur E adv v.width) { col := v.col, cells := fun _ => anything, high := 0 } t = r at hrun hE
  have hrun : Mirrors adv r (v.run adv (bytesOf E.cfg t)) := hrun
  generalize v.run adv (bytesOf E.cfg t) = v' at hrun
  have hbish : ∀ m ∈ s.mojis, Tabbish E.cfg m := by
    intro m hm
    have hf := reachable_from hb ho.sources h
    obtain ⟨c, hc, rfl⟩ := List.mem_map.mp hm
    have hl : c.moji.norm ∈ s.ed.line := List.mem_map.mpr ⟨c, hc, rfl⟩
    exact built_tabbish (hf.built _ hl) ho.plain (by have := hf.line _ hl; rwa [Moji.norm_write] at this)
  have htext : runesOf s.text = s.mojis.map tabRune := by
    have : s.text = lineText s.mojis := by
      show cell2string s.buf = _
      rw [cell2string_eq]
      unfold lineText St.mojis
      rw [List.flatMap_map, List.flatMap_map]
      congr 1
      funext c
      exact Moji.norm_write _
    rw [this, tabbish_text hbish]
  have hal : AlignedAt E.cfg 0 s.mojis := by
    intro pre p post e
    rw [Int.zero_add]
    exact reachable_aligned hb h pre p post e
  have hlen : s.len = s.mojis.length := by unfold St.len St.mojis; rw [List.length_map]
  have hsmall : columns E.cfg s.mojis ≤ 32767 := by
    have h1 := hu.ample s h
    have h2 := columns_most E.cfg s.mojis
    have h3 : s.termWidth ≤ v.width := by
      rcases reachable_width (BuiltinKeys.builtin hb) h with h | h
      · rw [h]; exact hW
      · exact hr _ h
    unfold Ample St.viewWidth at h1
    omega
  have a1 : adv 0x20 = 1 := hA.ascii _ (by decide) (by decide)
  rw [htext, ← htop]
  have h1 := hE.low
  have h2 := hE.high
  refine ⟨hrun.mode, ?_, ?_, fun x hx => ?_⟩
  · rw [List.length_map]; omega
  · rw [hrun.col, hE.col]
    congr 1
    show columns E.cfg ((s.mojis.take s.cursor.toNat).drop 0) = _
    rw [List.drop_zero, ← List.map_take]
    have hal' : AlignedAt E.cfg 0 (s.mojis.take s.cursor.toNat) := by
      intro pre p post e
      refine hal pre p (post ++ s.mojis.drop s.cursor.toNat) ?_
      rw [← List.cons_append, ← List.append_assoc, ← e, List.take_append_drop]
    have hle : columns E.cfg (s.mojis.take s.cursor.toNat) ≤ columns E.cfg s.mojis := by
      have := columns_append E.cfg (s.mojis.take s.cursor.toNat) (s.mojis.drop s.cursor.toNat)
      rw [List.take_append_drop] at this
      have := (Wide0.columns (fun x _ => hw x) : 0 ≤ columns E.cfg (s.mojis.drop s.cursor.toNat))
      omega
    have := (tabbish_layout (adv := adv) hw a1 (k := 0) (fun m hm => hbish m (List.mem_of_mem_take hm)) hal' (Int.le_refl 0) (by omega) 0 0).2.1
    omega
  · obtain ⟨-, -, c1, c2⟩ := tabbish_layout (adv := adv) hw a1 hbish hal (Int.le_refl 0) (by omega) s.topColumn x
    rw [Int.add_zero, ← hE.cells _ (by omega)] at c1 c2
    rw [← c2]
    exact (hrun.cells _).resolve_left c1

/-! ## Examples -/

namespace Example

/-- A width table: control characters have no width, CJK and emoji have two columns. -/
def table : Cfg := { plain with width := fun r => if 0x7F ≤ r ∧ r ≤ 0x9F then 0 else if r < 0x1100 then 1 else 2 }

theorem table_agrees : AgreesPlain table (plainColumns table) where
  ascii r h1 h2 := by
    unfold plainColumns
    rw [if_neg (by omega)]
    show (if 0x7F ≤ r ∧ r ≤ 0x9F then (0 : Int) else if r < 0x1100 then 1 else 2) = 1
    rw [if_neg (by omega), if_pos (by omega)]
  control r h1 h2 := if_pos ⟨h1, h2⟩
  plain r _ _ _ := rfl
  padded r _ hp := by
    have : plainColumns table r = 2 := by
      unfold plainColumns
      refine if_pos (Or.inr ?_)
      rcases hp with h | h | h
      · exact Or.inl h
      · exact Or.inr (Or.inr (Or.inl h))
      · exact Or.inr (Or.inr (Or.inr h))
    omega

theorem table_plain {r : Nat} (h1 : r < 0x7F ∨ 0x9F < r) (h2 : r ≠ 9) : Plain table r := by
  refine ⟨?_, h2, Or.inr rfl, Or.inr ?_⟩
  · rintro (⟨h, -⟩ | ⟨h, -⟩ | ⟨h, -⟩) <;> cases h
  · show 1 ≤ (if 0x7F ≤ r ∧ r ≤ 0x9F then (0 : Int) else if r < 0x1100 then 1 else 2) ∧
      (if 0x7F ≤ r ∧ r ≤ 0x9F then (0 : Int) else if r < 0x1100 then 1 else 2) ≤ 2
    rw [if_neg (by omega)]
    split <;> omega

/-- An empty screen of 80 columns. -/
def screen : Vt := { width := 80, height := 25, row := 3, col := 7, cells := fun _ _ => none }

/-- Any sequence of keys but Tab, Ctrl-T, DEL and C1 controls: the terminal shows the line. -/
theorem keys_display (l : List Bytes) (hl : ∀ k ∈ l, k ≠ [0x14] ∧ k ≠ [] ∧
    ∀ r ∈ runesOf k, (r < 0x7F ∨ 0x9F < r) ∧ r ≠ 9) :
    (∃ s r, readLine (env table) { input := l.map .key } = .ok (s, r)) ∧
    ∀ s, Reachable (env table) { input := l.map .key } s → s.input ≠ [] →
      Spec.Displays table (plainColumns table) (screen.run (plainColumns table) (bytesOf table s.out)) 2 75 (runesOf s.text)
        s.cursor.toNat (runesOf (lineText s.suffixList)) := by
  have hkey : ∀ k, .key k ∈ l.map Ev.key → k ∈ l := by
    intro k h
    obtain ⟨k', h', e⟩ := List.mem_map.mp h
    cases e
    exact h'
  have hres : ∀ n, .resize n ∉ l.map Ev.key := by
    intro n h
    obtain ⟨k', h', e⟩ := List.mem_map.mp h
    cases e
  have herr : ∀ n, .err n ∉ l.map Ev.key := by
    intro n h
    obtain ⟨k', h', e⟩ := List.mem_map.mp h
    cases e
  have hover : ∀ t, t = (env table).default ∨ t ∈ (env table).history ∨ ({ input := l.map .key } : World).clip = some t ∨
      FromKey (env table) { input := l.map .key } t → Over (Plain table) t := by
    rintro t (rfl | ht | ht | ht)
    · exact over_nil
    · cases ht
    · cases ht
    · intro r hr
      have := (hl _ (hkey _ (env_typed rfl rfl ht))).2.2 r hr
      exact table_plain this.1 this.2
  have hfirst : ∀ k, .key k ∈ l.map Ev.key → isControlRune (decodeRune k).1 = true ∨ Plain table (decodeRune k).1 := by
    intro k hk
    have h := hl k (hkey k hk)
    have : (decodeRune k).1 ∈ runesOf k := by
      cases hk : k with
      | nil => exact absurd hk h.2.1
      | cons x t => rw [runesOf_cons]; simp
    have := h.2.2 _ this
    exact Or.inr (table_plain this.1 this.2)
  obtain ⟨h1, h2⟩ := C58_texts_partial (E := env table) (w := { input := l.map .key }) (v := screen) rfl rfl rfl rfl rfl rfl
    (Or.inl rfl) (Or.inl rfl) table_agrees (fun r h1 h2 => table_plain (Or.inl (by omega)) (by omega))
    (fun r => by
      show 0 ≤ (if 0x7F ≤ r ∧ r ≤ 0x9F then (0 : Int) else if r < 0x1100 then 1 else 2)
      repeat' split
      all_goals omega)
    (fun a b h1 h2 => by show 0 ≤ a + 1 + b; omega) hover hfirst
    (fun h => (hl _ (hkey _ h)).1 rfl) (fun e h => herr e ((List.dropLast_sublist _).subset h))
    (by show (7 : Int) < 80; decide) (fun n h => absurd h (hres n)) (Int.le_refl 0) rfl (by decide) (Int.le_refl 80)
    (fun n h => absurd h (hres n))
  refine ⟨h1, fun s h hk => ?_⟩
  have hin := (reachable_input (defaultKeys_builtin table) h).subset
  have hno : ∀ evs : List Ev, (∀ ev ∈ evs, ev ∈ l.map Ev.key) → noResize evs = evs := by
    intro evs hev
    induction evs with
    | nil => rfl
    | cons ev evs ih =>
      have := ih fun x hx => hev x (by simp [hx])
      cases ev with
      | resize n => exact absurd (hev _ (by simp)) (hres n)
      | key k => exact congrArg (Ev.key k :: ·) this
      | err e => exact congrArg (Ev.err e :: ·) this
  have hno := hno s.input fun ev h => hin h
  obtain ⟨t, e, h3, -⟩ := h2 s h (by rw [hno]; exact hk)
  have hw : s.termWidth = 80 := by
    rcases reachable_width (BuiltinKeys.builtin (defaultKeys_builtin table)) h with h | h
    · exact h
    · exact absurd h (hres _)
  have e : s.out = t := e
  rw [hw] at h3
  rw [e]
  exact h3

/-- The keys a, 日, Ctrl-B, Ctrl-A … meet the conditions; after three of them `a` is in column 2, `日` in
columns 3 and 4, and the terminal's cursor is at `日`. -/
example : ∃ s, Reachable (env table) { input := keys ["a", "日", "\x02", "\x01", "\r"] } s ∧ s.input.length = 2 ∧
    (screen.run (plainColumns table) (bytesOf table s.out)).col = 3 ∧
    (screen.run (plainColumns table) (bytesOf table s.out)).cells 4 2 = some (0x61, 0) ∧
    (screen.run (plainColumns table) (bytesOf table s.out)).cells 4 4 = some (0x65E5, 1) ∧
    (screen.run (plainColumns table) (bytesOf table s.out)).cells 4 5 = none := by
  obtain ⟨s, h1, h2⟩ := gets_ok (E := env table) (w := { input := keys ["a", "日", "\x02", "\x01", "\r"] }) (n := 3)
    (p := fun s => decide (s.input.length = 2 ∧
      (screen.run (plainColumns table) (bytesOf table s.out)).col = 3 ∧
      (screen.run (plainColumns table) (bytesOf table s.out)).cells 4 2 = some (0x61, 0) ∧
      (screen.run (plainColumns table) (bytesOf table s.out)).cells 4 4 = some (0x65E5, 1) ∧
      (screen.run (plainColumns table) (bytesOf table s.out)).cells 4 5 = none)) (by decide +kernel)
  exact ⟨s, h1, of_decide_eq_true h2⟩

/-- Typing with tabs, inserting before them, deleting and undoing, a killed rest, on a wider terminal. -/
def tabbedKeys : World where
  input := keys ["a", "\t", "日", "\t", "c", "\x01", "x", "\x06", "\x06", "\x08", "\x1f", "\x0b", "\x19", "\x02", "\r"]

theorem tabbedKeys_unscrolled : Unscrolled (env table) tabbedKeys :=
  unscrolledCheck_ok (defaultKeys_builtin table) (by decide +kernel)

theorem tabbedKeys_tabular : Tabular (fun r => r = 9 ∨ Plain table r) (env table) tabbedKeys where
  sources := by
    have hkey : ∀ k, .key k ∈ tabbedKeys.input → ∀ r ∈ runesOf k, r = 9 ∨ ((r < 0x7F ∨ 0x9F < r) ∧ r ≠ 9) := by
      intro k hk
      have h : ∀ ev ∈ tabbedKeys.input, ∀ r ∈ runesOf (match ev with | .key k => k | _ => []),
          r = 9 ∨ ((r < 0x7F ∨ 0x9F < r) ∧ r ≠ 9) := by decide +kernel
      exact h _ hk
    refine ⟨over_nil, (fun h hh => nomatch hh), (fun t ht => nomatch ht), fun c t u hu => ?_, (fun f hf => nomatch hf),
      fun k hk => over_inserted fun r hr => ?_, fun q K _ hc => absurd hc (env_completion (E := env table) rfl rfl),
      fun q _ _ => Or.inr (table_plain (Or.inl (by decide)) (by decide)), (fun h => nomatch h), (fun h => nomatch h)⟩
    · cases hu
      exact Or.inl rfl
    · exact (hkey _ (env_typed (E := env table) rfl rfl hk) r hr).imp id fun h => table_plain h.1 h.2
  plain r hr := by
    refine ⟨?_, hr⟩
    rintro (⟨h, -⟩ | ⟨h, -⟩ | ⟨h, -⟩) <;> cases h
  written := rfl
  prompt n := rfl
  room := by decide
  search q hq hc := by
    have h : ∀ ev ∈ tabbedKeys.input, (match ev with
        | .key k => match lookupCommand (env table) k with | .isearchBackward => true | _ => false
        | _ => false) = false := by decide +kernel
    have := h _ hq
    dsimp only at this
    rw [hc] at this
    cases this
  box q K hc := absurd hc (env_completion (E := env table) rfl rfl)

/-- The hypotheses are met. -/
example (s : St) (h : Reachable (env table) tabbedKeys s) (hk : noResize s.input ≠ []) :
    ∃ t, s.out = t ∧ DisplaysAll table (plainColumns table) (screen.run (plainColumns table) (bytesOf table t)) 2 (runesOf s.text)
      s.cursor.toNat := by
  have hcol : ∀ r, 0x20 ≤ r → r ≤ 0x7E → plainColumns table r = 1 := fun r h1 h2 => table_agrees.ascii r h1 h2
  have hpl : ∀ r ∈ [0x3E, 0x20], Plain table r := fun r hr => by
    have : ∀ r ∈ [0x3E, 0x20], r < 0x7F ∧ r ≠ 9 := by decide
    exact table_plain (Or.inl (this r hr).1) (this r hr).2
  refine C58_tabs_partial (E := env table) (w := tabbedKeys) (v := screen) (defaultKeys_builtin table) tabbedKeys_tabular
    tabbedKeys_unscrolled table_agrees (width_nonneg (fun r => ?_) (fun a b h1 h2 => ?_)) (Or.inl rfl) (by decide)
    (fun b hb => Announces.landed (E := env table) hpl
      (prompt_announces hcol (hcol _ (by decide) (by decide)) (hcol _ (by decide) (by decide)) (by decide) rfl hb))
    rfl (by decide) (by decide) (fun n hn => ?_) (by decide) h hk
  · show 0 ≤ (if 0x7F ≤ r ∧ r ≤ 0x9F then (0 : Int) else if r < 0x1100 then 1 else 2)
    repeat' split
    all_goals omega
  · show 0 ≤ a + 1 + b; omega
  · obtain ⟨k, -, e⟩ := List.mem_map.mp hn
    cases e

/-- After six keys the line is `a`, a tab, `日`, a tab, `c`, `日` is in the columns
4 and 5 of the line, `c` in column 8, and the cursor is at its beginning. -/
example : ∃ s, Reachable (env table) tabbedKeys s ∧ s.input.length = 9 ∧ runesOf s.text = [0x61, 9, 0x65E5, 9, 0x63] ∧
    (screen.run (plainColumns table) (bytesOf table s.out)).col = 2 ∧
    (screen.run (plainColumns table) (bytesOf table s.out)).cells 4 2 = some (0x61, 0) ∧
    (screen.run (plainColumns table) (bytesOf table s.out)).cells 4 3 = some (0x20, 0) ∧
    (screen.run (plainColumns table) (bytesOf table s.out)).cells 4 7 = some (0x65E5, 1) ∧
    (screen.run (plainColumns table) (bytesOf table s.out)).cells 4 10 = some (0x63, 0) ∧
    (screen.run (plainColumns table) (bytesOf table s.out)).cells 4 11 = none := by
  obtain ⟨s, h1, h2⟩ := gets_ok (E := env table) (w := tabbedKeys) (n := 6)
    (p := fun s => decide (s.input.length = 9 ∧ runesOf s.text = [0x61, 9, 0x65E5, 9, 0x63] ∧
    (screen.run (plainColumns table) (bytesOf table s.out)).col = 2 ∧
    (screen.run (plainColumns table) (bytesOf table s.out)).cells 4 2 = some (0x61, 0) ∧
    (screen.run (plainColumns table) (bytesOf table s.out)).cells 4 3 = some (0x20, 0) ∧
    (screen.run (plainColumns table) (bytesOf table s.out)).cells 4 7 = some (0x65E5, 1) ∧
    (screen.run (plainColumns table) (bytesOf table s.out)).cells 4 10 = some (0x63, 0) ∧
    (screen.run (plainColumns table) (bytesOf table s.out)).cells 4 11 = none)) (by decide +kernel)
  exact ⟨s, h1, of_decide_eq_true h2⟩

end Example
end Readline
