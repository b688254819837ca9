import Verif.Proof.Wiped
/-!
# C91: after Ctrl-L nothing is on the screen but the prompt and the line

From the keys to the whole screen: whenever a key is awaited after the screen was cleared, the line is in the first row of the screen, or in the
second one if the prompt begins with a line feed, and all other rows are empty.
-/
namespace Readline
open Spec

variable {E : Env} {w : World} {D : Desk} {t : List Char} {n : Nat} {clip : Option (List Char)} {ks : List (List Char)}
  {adv : Rune → Int} {v : Vt} {S : Sign}

theorem base_only (S : Sign) {v : Vt} (h : ∀ y x, v.cells y x = none) (hr : v.row = 0) (hh : S.drop < v.height) :
    (S.base v).row = S.drop ∧ ∀ y x, (S.base v).cells y x = none := by
  unfold Sign.base
  unfold Sign.drop at hh ⊢
  split
  · rename_i hd
    rw [if_pos hd] at hh
    unfold Vt.newline
    rw [hr, if_pos (by omega)]
    exact ⟨by show (0 : Int) + 1 = 1; omega, h⟩
  · exact ⟨hr, h⟩

/-- The screen after it was cleared, in an ordinary session. -/
theorem wiped_screen {P : Nat → Prop} {s : St} (hb : BuiltinKeys E) (ho : Ordinary P E w) (hx : Plainly P E w) (hA : AgreesPlain E.cfg adv)
    (hw : ∀ m : Moji, 0 ≤ m.width E.cfg) (hc1 : Sgr E.predictColor.1) (hc2 : Sgr E.predictColor.2) (hS : S.Of E adv v.width) (hm : v.mode = .ground)
    (hv : 0 ≤ v.col) (hW : w.termWidth ≤ v.width) (hr : ∀ n, .resize n ∈ w.input → n ≤ v.width) (hh : S.drop < v.height)
    (h : Wiped E w s) (hk : noResize s.input ≠ []) :
    ∃ o, s.out = w.out ++ o ∧ OnlyRow (v.run adv (bytesOf E.cfg o)) S.drop := by
  have hroom := ho.room
  have hnn := hS.nonneg
  have hpw := hS.width w.promptN
  have hW0 : 0 < v.width := by omega
  have hd := drop_range S
  obtain ⟨t, n, hcl⟩ := wiped_rowed hb ho.scalar hx.scalar hS.width h
  obtain ⟨ts, e, hts⟩ := hcl.out
  have e : s.out = w.out ++ (t ++ (.lit wipeAll :: .flush :: .lit (signBytes E n) :: ts)) := by rw [e]; simp
  obtain ⟨t1, e1, hin⟩ := session_within (blur_sane hw) hb (ordinary_steady hb ho) hW hr h.reachable hk
  obtain rfl := List.append_cancel_left (e.symm.trans e1)
  obtain ⟨⟨t2, e2, hq⟩, -⟩ := ordinary_clean hb ho.scalar hx.scalar
    (ordinary_emits (W := v.width) ho.plain (by rw [hpw]; exact hnn) (by omega) hS.text) h.reachable
  obtain rfl := List.append_cancel_left (e.symm.trans e2)
  refine ⟨_, e, ?_⟩
  have hq1 : ∀ x ∈ t, Simple E adv v.width x := fun x hx => hq x (by simp [hx])
  have hq2 : ∀ x ∈ ts, Simple E adv v.width x := fun x hx => hq x (by simp [hx])
  have hrow : Mirrors adv { col := v.col, cells := fun _ => anything, high := 0 } v := ⟨hm, rfl, hv, fun _ => Or.inl rfl⟩
  have hhigh : (Row.run E.cfg (blur E adv v.width) { col := v.col, cells := fun _ => anything, high := 0 }
      (t ++ (.lit wipeAll :: .flush :: .lit (signBytes E n) :: ts))).high ≤ v.width :=
    Int.le_trans (hin { col := v.col, cells := fun _ => anything, high := 0 }) (by show max (0 : Int) (v.width - 3) ≤ _; omega)
  rw [run_append] at hhigh
  generalize hr0 : Row.run E.cfg (blur E adv v.width) { col := v.col, cells := fun _ => anything, high := 0 } t = r0 at hhigh
  have hm0 := Mirrors.run hA hc1 hc2 hW0 hq1 hrow rfl (by rw [hr0]; exact Int.le_trans (row_high_run _ r0) hhigh)
  rw [hr0] at hm0
  obtain ⟨rs, hrs⟩ := reads_all hA hc1 hc2 hW0 hq1
  have hu : v.run adv (t.flatMap (Tok.bytes E.cfg)) = v.feed adv rs := reads_run hrs v
  have hwid : (v.run adv (t.flatMap (Tok.bytes E.cfg))).width = v.width := by rw [hu]; exact feed_width ..
  have hhei : (v.run adv (t.flatMap (Tok.bytes E.cfg))).height = v.height := by rw [hu]; exact feed_height ..
  have hsplit : v.run adv (bytesOf E.cfg (t ++ (.lit wipeAll :: .flush :: .lit (signBytes E n) :: ts))) =
      (((v.run adv (t.flatMap (Tok.bytes E.cfg))).run adv wipeAll).run adv (signBytes E n)).run adv (ts.flatMap (Tok.bytes E.cfg)) := by
    unfold bytesOf
    rw [List.flatMap_append, hrs.cut]
    show Vt.run adv _ (wipeAll ++ ([] ++ (signBytes E n ++ ts.flatMap (Tok.bytes E.cfg)))) = _
    rw [List.nil_append, (Reads.valid (ascii_valid (by decide))).cut, (Reads.valid (hS.text _ (signBytes_text E n)).1).cut]
  rw [hsplit]
  generalize v.run adv (t.flatMap (Tok.bytes E.cfg)) = u0 at hm0 hwid hhei
  have hm3 := Mirrors.run hA hc1 hc2 hW0 (ts := [.lit wipeAll, .flush, .lit (signBytes E n)]) (fun x hx => hq x (by
    simp only [List.mem_append, List.mem_cons] at hx ⊢
    rcases hx with hx | hx | hx | hx
    · exact .inr (.inl hx)
    · exact .inr (.inr (.inl hx))
    · exact .inr (.inr (.inr (.inl hx)))
    · cases hx)) hm0 hwid (Int.le_trans (row_high_run ts _) hhigh)
  have e3 : u0.run adv ([Tok.lit wipeAll, .flush, .lit (signBytes E n)].flatMap (Tok.bytes E.cfg)) = (u0.run adv wipeAll).run adv (signBytes E n) := by
    show Vt.run adv _ (wipeAll ++ ([] ++ (signBytes E n ++ []))) = _
    rw [List.nil_append, List.append_nil, (Reads.valid (ascii_valid (by decide))).cut]
  rw [e3] at hm3
  obtain ⟨w1, w2, w3, w4, w5, w6⟩ := wipe_run (adv := adv) u0 hm0.mode (by omega) (by omega)
  generalize u0.run adv wipeAll = u1 at w1 w2 w3 w4 w5 w6 hm3
  obtain ⟨b1, b2⟩ := base_only S w6 w4 (by omega)
  obtain ⟨a1, a2⟩ := hangs_prompted (hS.first n u1 w1 (by omega) (by omega) (.inr w5))
  obtain ⟨c1, -⟩ := rowed_run hA hc1 hc2 hS (by omega) (fun x hx => rowed_weaken (fun r hr => ⟨ho.plain r hr.1, hr.2⟩) (hts x hx)) hq2 hm3
    (by rw [a1.width, base_width, w2, hwid]) hhigh a2
  have hl := a1.trans c1
  exact ⟨hl.row.trans b1, fun z hz x => by rw [hl.others z (by rw [b1]; exact hz)]; exact b2 z x⟩

/-- **Whenever a key is awaited after the screen was cleared**, the terminal shows the page of the textbook after the keys that were read, at the
top, and nothing else. -/
theorem C91_partial (h : PlainDesk E w D t n clip ks) (hC : Console S E w D t clip ks adv v) (hh : S.drop < v.height) {s : St} (hr : Wiped E w s)
    (hn : noResize s.input ≠ []) :
    ∃ p k r o hint, Turned D (opening D t n clip) ks p (k :: r) ∧ keysIn s.input = (k :: r).map utf8 ∧ s.out = w.out ++ o ∧
      ShowsPage S E.cfg adv (v.run adv (bytesOf E.cfg o)) (s.termWidth - S.columns E.cfg - 3) p hint ∧
      ((D.guessing = false ∨ ∀ k ∈ ks, D.verb k ∉ [.killRight, .killAll, .exchange, .older, .newer]) →
        hint = (p.offer D).map Char.toNat) ∧ OnlyRow (v.run adv (bytesOf E.cfg o)) S.drop := by
  obtain ⟨p, k, r, o, hint, h1, h2, h3, h4, h5⟩ := C80_partial h hC hr.reachable hn
  obtain ⟨o', e, h6⟩ := wiped_screen h.builtin (console_ordinary h hC) (console_plainly h hC) hC.agrees (width_nonneg hC.width hC.zwj) hC.colourOn
    hC.colourOff hC.sign hC.ground hC.col hC.wide hC.resized hh hr hn
  obtain rfl := List.append_cancel_left (h3.symm.trans e)
  exact ⟨p, k, r, o, hint, h1, h2, h3, h4, h5, h6⟩

/-! ## The other rows, key by key -/

/-- Where a key is awaited. -/
theorem wait_stands (h : PlainDesk E w D t n clip ks) (hC : Console S E w D t clip ks adv v) {s : St} (hr : Reachable E w s)
    (hn : noResize s.input ≠ []) :
    ∃ o, s.out = w.out ++ o ∧ (∃ rs, Reads (bytesOf E.cfg o) rs) ∧
      Mirrors adv (Row.run E.cfg (blur E adv v.width) { col := v.col, cells := fun _ => anything, high := 0 } o) (v.run adv (bytesOf E.cfg o)) ∧
      (Row.run E.cfg (blur E adv v.width) { col := v.col, cells := fun _ => anything, high := 0 } o).high ≤ v.width ∧
      (∀ x ∈ o, Simple E adv v.width x) ∧ Prompted S E.cfg adv (v.run adv (bytesOf E.cfg o)) := by
  have hb := h.setting.builtin
  have ho := console_ordinary h hC
  have hx := console_plainly h hC
  have hroom := hC.room h
  have hwide := hC.wide
  have hW0 : 0 < v.width := by omega
  obtain ⟨o, e, h2, h3⟩ := console_shows h hC s hr hn
  obtain ⟨t1, e1, hin⟩ := session_within (console_sane hC) hb (ordinary_steady hb ho) hC.wide hC.resized hr hn
  obtain rfl := List.append_cancel_left (e.symm.trans e1)
  obtain ⟨⟨t2, e2, hq⟩, -⟩ := ordinary_clean hb ho.scalar hx.scalar
    (ordinary_emits (W := v.width) ho.plain (by rw [hC.sign.width]; exact hroom.1) (by rw [hC.sign.width]; omega) hC.sign.text) hr
  obtain rfl := List.append_cancel_left (e.symm.trans e2)
  have hrow : Mirrors adv { col := v.col, cells := fun _ => anything, high := 0 } v := ⟨hC.ground, rfl, hC.col, fun _ => Or.inl rfl⟩
  have hhigh : (Row.run E.cfg (blur E adv v.width) { col := v.col, cells := fun _ => anything, high := 0 } o).high ≤ v.width :=
    Int.le_trans (hin _) (by show max (0 : Int) (v.width - 3) ≤ _; omega)
  refine ⟨o, e, reads_all hC.agrees hC.colourOn hC.colourOff hW0 hq, Mirrors.run hC.agrees hC.colourOn hC.colourOff hW0 hq hrow rfl hhigh, hhigh, hq,
    ?_, h3⟩
  obtain ⟨rs, e3, hrs⟩ := plainUnits_of (ordinary_units hb ho.scalar.sources (fun r hr => ho.plain r hr.1) hr)
  have e4 : runesOf s.text = rs := by
    have : s.text = lineText s.mojis := by
      show cell2string s.buf = _
      rw [cell2string_eq]
      unfold lineText St.mojis
      rw [List.flatMap_map, List.flatMap_map]
      congr 1
      funext c
      exact Moji.norm_write _
    rw [this, e3, plainUnits_text fun r hr => (hrs r hr).2]
  obtain ⟨-, away, left, right, rest, more, h4, -, -, -, -, h5, -⟩ := h2
  rw [h5]
  have : 0 ≤ textColumns E.cfg left := textColumns_nonneg fun r hr => ho.plain r (hrs r (by rw [← e4, h4]; simp [hr])).1
  omega

theorem awaits_before (hb : BuiltinKeys E) {s s' : St} (hst : step E s = .ok (s', none)) (hn : noResize s'.input ≠ []) : noResize s.input ≠ [] := by
  obtain ⟨ev, rest, h1, h2⟩ := step_sublist hb hst
  exact noResize_sub (by rw [h1]; exact h2.trans (List.sublist_cons_self _ _)) hn

/-- A key that does not redraw the screen, or a resize. -/
theorem level_step (h : PlainDesk E w D t n clip ks) (hC : Console S E w D t clip ks adv v) {s s' : St} (hr : Reachable E w s)
    (hst : step E s = .ok (s', none)) (hn : noResize s'.input ≠ [])
    (hne : ∀ k rest, s.input = .key k :: rest → lookupCommand E k ≠ .clearScreen ∧ lookupCommand E k ≠ .repaintOnNewline) :
    ∃ o o', s.out = w.out ++ o ∧ s'.out = w.out ++ o' ∧ Level (v.run adv (bytesOf E.cfg o)) (v.run adv (bytesOf E.cfg o')) := by
  have hb := h.setting.builtin
  have ho := console_ordinary h hC
  have hroom := hC.room h
  have hwide := hC.wide
  obtain ⟨o, e, ⟨rs, hrs⟩, hm, -, -, hp⟩ := wait_stands h hC hr (awaits_before hb hst hn)
  obtain ⟨o', e', -, -, hhigh, hq, -⟩ := wait_stands h hC (.step hr hst) hn
  have hcl := ordinary_clean hb ho.scalar (console_plainly h hC).scalar (everything _ E _) hr
  obtain ⟨ts, e2, hts⟩ := (step_rowed hb ho.scalar (console_plainly h hC).scalar hC.sign.width hr (clean_here hcl.hint) hst hne).out
  obtain rfl : o' = o ++ ts := List.append_cancel_left (e'.symm.trans (by rw [e2, e]; simp))
  refine ⟨o, o ++ ts, e, e', ?_⟩
  rw [run_append] at hhigh
  have hu : v.run adv (bytesOf E.cfg o) = v.feed adv rs := reads_run hrs v
  have e3 : v.run adv (bytesOf E.cfg (o ++ ts)) = (v.run adv (bytesOf E.cfg o)).run adv (ts.flatMap (Tok.bytes E.cfg)) := by
    unfold bytesOf at hrs ⊢
    rw [List.flatMap_append, hrs.cut]
  rw [e3]
  exact (rowed_run hC.agrees hC.colourOn hC.colourOff hC.sign (by omega) (fun x hx => rowed_weaken (fun r hr => ⟨ho.plain r hr.1, hr.2⟩) (hts x hx))
    (fun x hx => hq x (by simp [hx])) hm (by rw [hu]; exact feed_width ..) hhigh hp).1

theorem feeds_lifted (S : Sign) {u u1 u' : Vt} (hu : u.row < u.height) (h0 : Unmoved u u1) (h : Level (S.base u1.newline) u') : Lifted u u' (1 + S.drop) := by
  have hl0 : Lifted u u1 0 := fun k _ => by rw [h0.row, h0.cells, Int.zero_add]
  have hu1 : u1.row < u1.height := by rw [h0.row, h0.height]; exact hu
  have hl : Lifted u u1.newline 1 := by
    have := hl0.trans (newline_lifted hu1) (Int.le_refl 0)
    rw [Int.add_zero] at this
    exact this
  unfold Sign.base at h
  unfold Sign.drop
  cases hd : S.down with
  | true =>
    rw [hd] at h
    exact (hl.trans (newline_lifted (newline_row u1 hu1)) (by decide)).level h (by decide)
  | false =>
    rw [hd] at h
    exact hl.level h (by decide)

/-- A key that redraws the line on a new row. -/
theorem feeds_step (h : PlainDesk E w D t n clip ks) (hC : Console S E w D t clip ks adv v) {s s' : St} (hr : Reachable E w s)
    (hst : step E s = .ok (s', none)) (hn : noResize s'.input ≠ []) {k : Bytes} {rest : List Ev} (hi : s.input = .key k :: rest)
    (hk : lookupCommand E k = .repaintOnNewline) :
    ∃ o o' u, s.out = w.out ++ o ∧ s'.out = w.out ++ o' ∧ Unmoved (v.run adv (bytesOf E.cfg o)) u ∧
      Level (S.base u.newline) (v.run adv (bytesOf E.cfg o')) := by
  have hb := h.setting.builtin
  have ho := console_ordinary h hC
  have hroom := hC.room h
  have hwide := hC.wide
  have hW0 : 0 < v.width := by omega
  obtain ⟨o, e, ⟨rs, hrs⟩, hm, -, -, hp⟩ := wait_stands h hC hr (awaits_before hb hst hn)
  obtain ⟨o', e', -, -, hhigh, hq, -⟩ := wait_stands h hC (.step hr hst) hn
  obtain ⟨n, hcl⟩ := step_feeds hb ho.scalar (console_plainly h hC).scalar hC.sign.width hr hi hk hst
  obtain ⟨ts, e2, hts⟩ := hcl.out
  obtain rfl : o' = o ++ ([.await, .cursorOff, .lit [0x0A], .flush, .lit (signBytes E n)] ++ ts) :=
    List.append_cancel_left (e'.symm.trans (by rw [e2, e]; simp))
  have hu : v.run adv (bytesOf E.cfg o) = v.feed adv rs := reads_run hrs v
  have hwid : (v.run adv (bytesOf E.cfg o)).width = v.width := by rw [hu]; exact feed_width ..
  have hq3 : ∀ x ∈ [Tok.await, .cursorOff, .lit [0x0A], .flush, .lit (signBytes E n)], Simple E adv v.width x := fun x hx => hq x (by
    rw [List.mem_append, List.mem_append]; exact .inr (.inl hx))
  rw [run_append, run_append] at hhigh
  have hm3 := Mirrors.run hC.agrees hC.colourOn hC.colourOff hW0 hq3 hm hwid (Int.le_trans (row_high_run ts _) hhigh)
  obtain ⟨qs, hqs⟩ := reads_all hC.agrees hC.colourOn hC.colourOff hW0 hq3
  have e3 : v.run adv (bytesOf E.cfg (o ++ ([.await, .cursorOff, .lit [0x0A], .flush, .lit (signBytes E n)] ++ ts))) =
      ((v.run adv (bytesOf E.cfg o)).run adv ([Tok.await, .cursorOff, .lit [0x0A], .flush, .lit (signBytes E n)].flatMap (Tok.bytes E.cfg))).run adv
        (ts.flatMap (Tok.bytes E.cfg)) := by
    unfold bytesOf at hrs ⊢
    rw [List.flatMap_append, hrs.cut, List.flatMap_append, hqs.cut]
  have hoff := reads_csi (ps := [0x3F, 0x32, 0x35]) (f := 0x6C) (by decide) (by decide)
  have e4 : (v.run adv (bytesOf E.cfg o)).run adv ([Tok.await, .cursorOff, .lit [0x0A], .flush, .lit (signBytes E n)].flatMap (Tok.bytes E.cfg)) =
      (((v.run adv (bytesOf E.cfg o)).run adv (Tok.cursorOff.bytes E.cfg)).run adv [0x0A]).run adv (signBytes E n) := by
    show Vt.run adv _ ([] ++ (Tok.cursorOff.bytes E.cfg ++ ([0x0A] ++ ([] ++ (signBytes E n ++ []))))) = _
    rw [List.nil_append, List.nil_append, List.append_nil, Reads.cut (b := Tok.cursorOff.bytes E.cfg) hoff, (Reads.valid (ascii_valid (by decide))).cut]
  have hun : Unmoved (v.run adv (bytesOf E.cfg o)) ((v.run adv (bytesOf E.cfg o)).run adv (Tok.cursorOff.bytes E.cfg)) := by
    rw [reads_run (b := Tok.cursorOff.bytes E.cfg) hoff]
    exact unmoved_csi hm.mode (by decide) (by decide) (by decide) ⟨rfl, rfl, rfl, rfl, rfl, rfl⟩
  refine ⟨o, _, _, e, e', hun, ?_⟩
  rw [e3]
  rw [e4] at hm3 ⊢
  generalize (v.run adv (bytesOf E.cfg o)).run adv (Tok.cursorOff.bytes E.cfg) = u1 at hun hm3
  have hnl : u1.run adv [0x0A] = u1.newline := by
    rw [run_ascii _ (by decide)]
    exact sign_newline u1 hun.mode
  rw [hnl] at hm3 ⊢
  have hw1 : u1.newline.width = v.width := by rw [newline_width, hun.width, hwid]
  obtain ⟨a1, a2⟩ := hangs_prompted (hC.sign.first n u1.newline ((newline_mode u1).trans hun.mode) hw1 (by rw [newline_col]; decide)
    (.inr (newline_col u1)))
  obtain ⟨c1, -⟩ := rowed_run hC.agrees hC.colourOn hC.colourOff hC.sign (by omega)
    (fun x hx => rowed_weaken (fun r hr => ⟨ho.plain r hr.1, hr.2⟩) (hts x hx)) (fun x hx => hq x (by simp [hx])) hm3
    (by rw [a1.width, base_width, hw1]) hhigh a2
  exact a1.trans c1

/-- The cursor stays on the screen. -/
theorem stays_inside (h : PlainDesk E w D t n clip ks) (hC : Console S E w D t clip ks adv v) (hv : v.row < v.height) (hh : S.drop < v.height)
    {s : St} (hr : Reachable E w s) (hn : noResize s.input ≠ []) :
    ∃ o, s.out = w.out ++ o ∧ (v.run adv (bytesOf E.cfg o)).row < (v.run adv (bytesOf E.cfg o)).height := by
  have hb := h.setting.builtin
  have ho := console_ordinary h hC
  induction hr with
  | @start s hs =>
    obtain ⟨ts, e, hts⟩ := ((start_rowed ho.scalar hC.sign.width).ok hs).out
    have e : s.out = w.out ++ .lit (signBytes E w.promptN) :: ts := by rw [e]; simp
    obtain ⟨t1, e1, -, -, hhigh, -, -⟩ := wait_stands h hC (.start hs) hn
    obtain rfl := List.append_cancel_left (e.symm.trans e1)
    have hroom := hC.room h
    have hwide := hC.wide
    have hl := (call_rows hC.agrees hC.colourOn hC.colourOff hC.sign (by omega) (fun t ht => rowed_weaken (fun r hr => ⟨hr.1.1, hr.2⟩) (hts t ht))
      hC.ground hC.col hC.start hhigh).1
    exact ⟨_, e, by rw [hl.row, hl.height]; exact base_row S hv⟩
  | @step s s' hr hst ih =>
    obtain ⟨o, e, hi⟩ := ih (awaits_before hb hst hn)
    have hnext : ∀ o1, s.out = w.out ++ o1 → o1 = o := fun o1 h1 => List.append_cancel_left (h1.symm.trans e)
    by_cases hk : ∃ k rest, s.input = .key k :: rest ∧ (lookupCommand E k = .clearScreen ∨ lookupCommand E k = .repaintOnNewline)
    · obtain ⟨k, rest, h1, h2 | h2⟩ := hk
      · obtain ⟨o', e', h3⟩ := wiped_screen hb ho (console_plainly h hC) hC.agrees (width_nonneg hC.width hC.zwj) hC.colourOn
          hC.colourOff hC.sign hC.ground hC.col hC.wide hC.resized hh (.now hr h1 h2 hst) hn
        obtain ⟨t1, e1, ⟨rs, hrs⟩, -⟩ := wait_stands h hC (.step hr hst) hn
        obtain rfl := List.append_cancel_left (e'.symm.trans e1)
        refine ⟨o', e', ?_⟩
        rw [h3.1, reads_run hrs, feed_height]
        exact hh
      · obtain ⟨o1, o', u, e1, e', h3, h4⟩ := feeds_step h hC hr hst hn h1 h2
        obtain rfl := hnext o1 e1
        refine ⟨o', e', ?_⟩
        rw [h4.row, h4.height]
        exact base_row S (newline_row u (by rw [h3.row, h3.height]; exact hi))
    · obtain ⟨o1, o', e1, e', h3⟩ := level_step h hC hr hst hn fun k rest h1 => ⟨fun h2 => hk ⟨k, rest, h1, .inl h2⟩, fun h2 => hk ⟨k, rest, h1, .inr h2⟩⟩
      obtain rfl := hnext o1 e1
      exact ⟨o', e', by rw [h3.row, h3.height]; exact hi⟩

/-- **From one wait for a key to the next**: what happens to the rows other than that of the line.  A key that clears the screen empties them, a key
that redraws the line on a new row leaves everything that stood in the row and above it, and anything else, resizes included, does not touch them. -/
theorem C91_step_partial (h : PlainDesk E w D t n clip ks) (hC : Console S E w D t clip ks adv v) (hv : v.row < v.height) (hh : S.drop < v.height)
    {s s' : St} (hr : Reachable E w s) (hst : step E s = .ok (s', none)) (hn : noResize s'.input ≠ []) :
    ∃ o o', s.out = w.out ++ o ∧ s'.out = w.out ++ o' ∧
      ((∃ k rest, s.input = .key k :: rest ∧ lookupCommand E k = .clearScreen) → OnlyRow (v.run adv (bytesOf E.cfg o')) S.drop) ∧
      ((∃ k rest, s.input = .key k :: rest ∧ lookupCommand E k = .repaintOnNewline) →
        Lifted (v.run adv (bytesOf E.cfg o)) (v.run adv (bytesOf E.cfg o')) (1 + S.drop)) ∧
      ((∀ k rest, s.input = .key k :: rest → lookupCommand E k ≠ .clearScreen ∧ lookupCommand E k ≠ .repaintOnNewline) →
        (v.run adv (bytesOf E.cfg o')).row = (v.run adv (bytesOf E.cfg o)).row ∧
          ∀ y, y ≠ (v.run adv (bytesOf E.cfg o)).row → (v.run adv (bytesOf E.cfg o')).cells y = (v.run adv (bytesOf E.cfg o)).cells y) := by
  have hb := h.setting.builtin
  obtain ⟨o, e, hi⟩ := stays_inside h hC hv hh hr (awaits_before hb hst hn)
  obtain ⟨o', e', -⟩ := stays_inside h hC hv hh (.step hr hst) hn
  refine ⟨o, o', e, e', ?_, ?_, fun hk => ?_⟩
  · rintro ⟨k, rest, h1, h2⟩
    obtain ⟨o1, e1, h3⟩ := wiped_screen hb (console_ordinary h hC) (console_plainly h hC) hC.agrees (width_nonneg hC.width hC.zwj) hC.colourOn
      hC.colourOff hC.sign hC.ground hC.col hC.wide hC.resized hh (.now hr h1 h2 hst) hn
    obtain rfl := List.append_cancel_left (e'.symm.trans e1)
    exact h3
  · rintro ⟨k, rest, h1, h2⟩
    obtain ⟨o1, o2, u, e1, e2, h3, h4⟩ := feeds_step h hC hr hst hn h1 h2
    obtain rfl := List.append_cancel_left (e.symm.trans e1)
    obtain rfl := List.append_cancel_left (e'.symm.trans e2)
    exact feeds_lifted S hi h3 h4
  · obtain ⟨o1, o2, e1, e2, h3⟩ := level_step h hC hr hst hn hk
    obtain rfl := List.append_cancel_left (e.symm.trans e1)
    obtain rfl := List.append_cancel_left (e'.symm.trans e2)
    exact ⟨h3.row, h3.others⟩

/-! ## Examples -/

section
open Example

/-- The state after a key that clears the screen and some more, to compute an example. -/
def wipedAfter (E : Env) (w : World) (n : Nat) : Nat → Option St
  | 0 => match reach E w n with
    | none => none
    | some s => match s.input with
      | .key k :: _ => match lookupCommand E k with
        | .clearScreen => match step E s with
          | .ok (s', none) => some s'
          | _ => none
        | _ => none
      | _ => none
  | m + 1 => match wipedAfter E w n m with
    | none => none
    | some s => match s.input with
      | .key k :: _ => match lookupCommand E k with
        | .repaintOnNewline => none
        | _ => match step E s with
          | .ok (s', none) => some s'
          | _ => none
      | _ => none

theorem wipedAfter_ok {E : Env} {w : World} {n m : Nat} {s : St} (h : wipedAfter E w n m = some s) : Wiped E w s := by
  induction m generalizing s with
  | zero =>
    unfold wipedAfter at h
    split at h
    · cases h
    · rename_i s0 h0
      split at h
      · rename_i k rest hi
        split at h
        · rename_i hk
          split at h
          · rename_i hst
            cases h
            exact .now (reach_ok h0) hi hk hst
          · cases h
        · cases h
      · cases h
  | succ m ih =>
    unfold wipedAfter at h
    split at h
    · cases h
    · rename_i s0 h0
      split at h
      · rename_i k rest hi
        split at h
        · cases h
        · rename_i hk
          split at h
          · rename_i hst
            cases h
            refine .later (ih h0) (fun k' rest' hi' => ?_) hst
            rw [hi] at hi'
            cases hi'
            exact hk
          · cases h
      · cases h

/-- `m`, `x`, Ctrl-L, Backspace, `a`, then Enter. -/
def wipeKeys : List (List Char) := ["m", "x", "\x0c", "\x7f", "a", "\r"].map String.toList

theorem wipe_ready : UsualDesk shownEnv { input := wipeKeys.map fun k => .key (utf8 k) } shownDesk [] 0 none wipeKeys ∧
    Console usualSign shownEnv { input := wipeKeys.map fun k => .key (utf8 k) } shownDesk [] none wipeKeys (plainColumns table) screen :=
  ⟨shown_usual (by decide +kernel) (by decide +kernel) (by decide +kernel) (by decide +kernel) (by intro x hx; simp at hx)
    (by intro x hx; simp at hx), shown_console (by decide +kernel) (by decide +kernel) (by intro x hx; simp at hx)⟩

/-- Before Enter `> make 世` is in the second row of the screen, behind the line feed of the prompt, and the fifth row, where it was before, is empty. -/
example : ∃ s, Wiped shownEnv { input := wipeKeys.map fun k => .key (utf8 k) } s ∧ s.input.length = 1 ∧
    (screen.run (plainColumns table) (bytesOf table s.out)).row = 1 ∧
    ((List.range 5).map fun (i : Nat) => (screen.run (plainColumns table) (bytesOf table s.out)).cells 1 (i : Int)) =
      [some (0x3E, 0), some (0x20, 0), some (0x6D, 0), some (0x61, 0), some (0x6B, 0)] ∧
    ((List.range 5).map fun (i : Nat) => (screen.run (plainColumns table) (bytesOf table s.out)).cells 4 (i : Int)) = [none, none, none, none, none] := by
  have h : (wipedAfter shownEnv { input := wipeKeys.map fun k => .key (utf8 k) } 2 2).any (fun s => decide (s.input.length = 1 ∧
    (screen.run (plainColumns table) (bytesOf table s.out)).row = 1 ∧
    ((List.range 5).map fun (i : Nat) => (screen.run (plainColumns table) (bytesOf table s.out)).cells 1 (i : Int)) =
      [some (0x3E, 0), some (0x20, 0), some (0x6D, 0), some (0x61, 0), some (0x6B, 0)] ∧
    ((List.range 5).map fun (i : Nat) => (screen.run (plainColumns table) (bytesOf table s.out)).cells 4 (i : Int)) =
      [none, none, none, none, none])) = true := by decide +kernel
  cases h1 : wipedAfter shownEnv { input := wipeKeys.map fun k => .key (utf8 k) } 2 2 with
  | none => rw [h1] at h; cases h
  | some s => rw [h1] at h; exact ⟨s, wipedAfter_ok h1, of_decide_eq_true h⟩

/-- The same editor with Ctrl-L bound to REPAINT_ON_NEWLINE. -/
def feedEnv : Env := { shownEnv with keyMap := some fun k => if k = [0x0C] then some .repaintOnNewline else none }

theorem feed_lookup (q : Bytes) : lookupCommand feedEnv q = .repaintOnNewline ∧ q = [0x0C] ∨ lookupCommand feedEnv q = lookupCommand shownEnv q ∧ q ≠ [0x0C] := by
  by_cases h : q = [0x0C]
  · subst h; exact .inl ⟨rfl, rfl⟩
  · refine .inr ⟨?_, h⟩
    unfold lookupCommand
    show (match (if q = [0x0C] then some Cmd.repaintOnNewline else none) with | some f => f | none => _) = _
    rw [if_neg h]
    rfl

theorem feed_ready : PlainDesk feedEnv { input := wipeKeys.map fun k => .key (utf8 k) } shownDesk [] 0 none wipeKeys ∧
    Console usualSign feedEnv { input := wipeKeys.map fun k => .key (utf8 k) } shownDesk [] none wipeKeys (plainColumns table) screen := by
  have hd := wipe_ready.1.desk
  have hc := wipe_ready.2
  refine ⟨{ hd with
    builtin := fun k f hx => ?_
    noCompletion := fun q K hx => ?_
    means := fun k hk => ?_
    predictor := ?_ }, { hc with sign := usual_sign table_agrees (fun r h1 h2 => table_plain (Or.inl (by omega)) (by omega)) rfl (by decide) }⟩
  · rcases feed_lookup k with ⟨h, -⟩ | ⟨h, -⟩
    · rw [h] at hx; cases hx
    · rw [h] at hx; exact hd.builtin k f hx
  · rcases feed_lookup q with ⟨h, -⟩ | ⟨h, -⟩
    · rw [h] at hx; cases hx
    · rw [h] at hx; exact hd.noCompletion q K hx
  · rcases feed_lookup (utf8 k) with ⟨h, e⟩ | ⟨h, -⟩
    · have hv : ∀ k ∈ wipeKeys, utf8 k = [0x0C] → shownDesk.verb k = .redraw := by
        have h0 : ∀ k ∈ wipeKeys, utf8 k = [0x0C] → k = "\x0c".toList := by decide +kernel
        intro k hk he
        rw [h0 k hk he]
        rfl
      rw [h, hv k hk e]
      constructor
    · rw [h]; exact hd.means k hk
  · exact foresees_usual rfl rfl

/-- After it the cursor is two rows below, behind the prompt and `mx`, and in the fifth row `> mx` is still there. -/
example : ∃ s s', Reachable feedEnv { input := wipeKeys.map fun k => .key (utf8 k) } s ∧ step feedEnv s = .ok (s', none) ∧
    noResize s'.input ≠ [] ∧ (∃ k rest, s.input = .key k :: rest ∧ lookupCommand feedEnv k = .repaintOnNewline) ∧
    (screen.run (plainColumns table) (bytesOf table s'.out)).row = 6 ∧
    ((List.range 5).map fun (i : Nat) => (screen.run (plainColumns table) (bytesOf table s'.out)).cells 4 (i : Int)) =
      [some (0x3E, 0), some (0x20, 0), some (0x6D, 0), some (0x78, 0), none] := by
  have h : (reach feedEnv { input := wipeKeys.map fun k => .key (utf8 k) } 2).any (fun s => match s.input with
    | .key k :: _ => decide (k = [0x0C]) && match step feedEnv s with
      | .ok (s', none) => decide ((noResize s'.input).length = 3 ∧ (screen.run (plainColumns table) (bytesOf table s'.out)).row = 6 ∧
        ((List.range 5).map fun (i : Nat) => (screen.run (plainColumns table) (bytesOf table s'.out)).cells 4 (i : Int)) =
          [some (0x3E, 0), some (0x20, 0), some (0x6D, 0), some (0x78, 0), none])
      | _ => false
    | _ => false) = true := by decide +kernel
  cases h1 : reach feedEnv { input := wipeKeys.map fun k => .key (utf8 k) } 2 with
  | none => rw [h1] at h; cases h
  | some s =>
    rw [h1] at h
    replace h : (match s.input with
      | .key k :: _ => decide (k = [0x0C]) && match step feedEnv s with
        | .ok (s', none) => decide ((noResize s'.input).length = 3 ∧ (screen.run (plainColumns table) (bytesOf table s'.out)).row = 6 ∧
          ((List.range 5).map fun (i : Nat) => (screen.run (plainColumns table) (bytesOf table s'.out)).cells 4 (i : Int)) =
            [some (0x3E, 0), some (0x20, 0), some (0x6D, 0), some (0x78, 0), none])
        | _ => false
      | _ => false) = true := h
    split at h
    · rename_i k rest hi
      obtain ⟨h2, h3⟩ := Bool.and_eq_true_iff.mp h
      have h2 := of_decide_eq_true h2
      subst h2
      split at h3
      · rename_i s' hst
        obtain ⟨h4, h5, h6⟩ := of_decide_eq_true h3
        exact ⟨s, s', reach_ok h1, hst, (fun hx => by rw [hx] at h4; cases h4), ⟨_, rest, hi, rfl⟩, h5, h6⟩
      · cases h3
    · cases h

end

end Readline
