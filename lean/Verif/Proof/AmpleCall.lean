import Verif.Proof.Ample
/-!
# Every command shows the whole of a line that fits
-/
namespace Readline
open Spec

variable {C : Cfg} {E : Env} {lit : Bytes → Row → Row} {s s1 s' : St} {w : World}

theorem Upholds.refl : Upholds E lit s s := ⟨[], by simp, fun r h => ⟨h, Int.le_max_left _ _⟩⟩

theorem Spec.Entire.congr {r : Row} (h : Entire E s r) (h1 : s'.buf = s.buf := by rfl)
    (h2 : s'.viewStart = s.viewStart := by rfl) (h3 : s'.cursor = s.cursor := by rfl)
    (h4 : s'.topColumn = s.topColumn := by rfl) : Entire E s' r := by
  have hm : s'.mojis = s.mojis := by unfold St.mojis; rw [h1]
  have hl : s'.len = s.len := by unfold St.len; rw [h1]
  exact ⟨by rw [h2]; exact h.start, by rw [h3]; exact h.low, by rw [h3, hl]; exact h.high,
    by rw [h3, h4, between_congr hm]; exact h.col, by rw [h4, hm]; exact h.cells⟩

theorem Upholds.congr (h : Upholds E lit s s1) (h0 : s'.out = s1.out := by rfl)
    (h1 : s'.buf = s1.buf := by rfl) (h2 : s'.viewStart = s1.viewStart := by rfl)
    (h3 : s'.cursor = s1.cursor := by rfl) (h4 : s'.topColumn = s1.topColumn := by rfl)
    (h5 : s'.termWidth = s1.termWidth := by rfl) : Upholds E lit s s' := by
  obtain ⟨t, e, hr⟩ := h
  exact ⟨t, h0.trans e, fun r hs => ⟨(hr r hs).1.congr h1 h2 h3 h4, by rw [h5]; exact (hr r hs).2⟩⟩

theorem Upholds.of_state (h : Upholds E lit s1 s') (h0 : s1.out = s.out := by rfl)
    (h1 : s1.buf = s.buf := by rfl) (h2 : s1.viewStart = s.viewStart := by rfl)
    (h3 : s1.cursor = s.cursor := by rfl) (h4 : s1.topColumn = s.topColumn := by rfl) : Upholds E lit s s' := by
  obtain ⟨t, e, hr⟩ := h
  exact ⟨t, by rw [e, h0], fun r hs => hr r (hs.congr h1 h2 h3 h4)⟩

/-- A token that leaves the row alone. -/
theorem Upholds.emit (h : Upholds E lit s s1) (t : Tok) (ht : ∀ r, Row.receive E.cfg lit r t = r) :
    Upholds E lit s (s1.emit t) := by
  obtain ⟨u, e, hr⟩ := h
  refine ⟨u ++ [t], ?_, fun r hs => ?_⟩
  · show s1.out ++ [t] = _
    rw [e, List.append_assoc]
  · have : Row.run E.cfg lit r (u ++ [t]) = Row.run E.cfg lit r u := by
      rw [run_append]; exact ht _
    rw [this]
    exact ⟨(hr r hs).1.congr, (hr r hs).2⟩

theorem Upholds.trans {s1 s2 s3 : St} (h : Upholds E lit s1 s2) (h' : Upholds E lit s2 s3)
    (hw : s3.termWidth = s2.termWidth) : Upholds E lit s1 s3 := by
  obtain ⟨t1, e1, r1⟩ := h
  obtain ⟨t2, e2, r2⟩ := h'
  refine ⟨t1 ++ t2, by rw [e2, e1, List.append_assoc], fun r hs => ?_⟩
  rw [run_append]
  have a := r1 r hs
  have b := r2 _ a.1
  refine ⟨b.1, ?_⟩
  have := b.2
  have := a.2
  rw [hw] at *
  omega

theorem Draws.upholds {f : Row → Row} (hd : Draws E.cfg lit s s' f)
    (h : ∀ r, Entire E s r → Entire E s' (f r) ∧ (f r).high ≤ max r.high (s'.termWidth - 3)) :
    Upholds E lit s s' := by
  obtain ⟨t, e, hr⟩ := hd
  exact ⟨t, e, fun r hs => by rw [hr]; exact h r hs⟩

/-- Printing the units between the cursor and a position moves the cursor there. -/
theorem advance_entire (hS : Sane E lit) (ha : s.aligned E) (hA : Ample E s) {p : Int}
    (h : puts E s s.cursor p = .ok s1) : Upholds E lit s { s1 with cursor := p } := by
  obtain ⟨⟨b, o, e⟩, hm, ⟨h0, h1, h2⟩, hd⟩ := puts_row (lit := lit) ha h
  refine Draws.upholds (hd.of_out (s2 := { s1 with cursor := p })) fun r hs => ?_
  have hm' : ({ s1 with cursor := p } : St).mojis = s.mojis := hm
  have hlen : ({ s1 with cursor := p } : St).len = s.len := by
    rw [← mojis_length, ← mojis_length, hm']
  have e1 : s1.viewStart = s.viewStart ∧ s1.topColumn = s.topColumn ∧ s1.termWidth = s.termWidth := by
    rw [e]; exact ⟨rfl, rfl, rfl⟩
  have hsp : s.between 0 p = s.between 0 s.cursor ++ s.between s.cursor p := between_split hs.low h1
  have hsp2 : s.mojis = s.between 0 s.cursor ++ s.between s.cursor p ++ s.between p s.len := by
    rw [← hsp, ← between_split (by omega) h2, between_all s (Int.le_refl _)]
  have hcol := hs.col
  have hw := hA.between hS 0 p
  rw [hsp, columns_append] at hw
  refine ⟨⟨e1.1.trans hs.start, by show 0 ≤ p; omega, by rw [hlen]; exact h2, ?_, ?_⟩, ?_⟩
  · rw [puts_col, hcol, between_congr hm']
    show _ = s1.topColumn + columns E.cfg (s.between 0 p)
    rw [e1.2.1, hsp, columns_append]
    omega
  · rw [hm']
    show ∀ x, s1.topColumn ≤ x → _ = layout E.cfg s.mojis s1.topColumn x
    rw [e1.2.1]
    have hc := hs.cells
    rw [hsp2] at hc ⊢
    exact printOver hS.width hcol hc rfl
  · show _ ≤ max r.high (s1.termWidth - 3)
    rw [e1.2.2, ← St.lim s]
    apply puts_high (hS.wide _)
    · omega
    · rw [hcol]; omega

/-- `cmdEndOfLine`, whether or not the tabs are in their columns. -/
theorem endOfLine_entire (hS : Sane E lit) (hv : s.viewStart = 0) (hA : Ample E s) {p : St × Result}
    (hc : 0 ≤ s.cursor) (ha : s.cursor = 0 ∨ s.aligned E) (h : cmdEndOfLine E s = .ok p) :
    ∃ t, p.1.out = s.out ++ t ∧ ∀ r : Row, r.col = s.topColumn + columns E.cfg (s.between 0 s.cursor) →
      (∀ x, s.topColumn ≤ x → x < s.topColumn + columns E.cfg (s.between 0 s.cursor) →
        r.cells x = layout E.cfg (s.between 0 s.cursor) s.topColumn x) →
      Entire E p.1 (Row.run E.cfg lit r t) ∧ (Row.run E.cfg lit r t).high ≤ max r.high (p.1.termWidth - 3) := by
  unfold cmdEndOfLine at h
  obtain ⟨w, h0, h⟩ := bind_ok.mp h
  obtain ⟨_, _, _, hw⟩ := widthBetween_columns h0
  rw [hv] at hw
  have hlt := hA.between hS 0 s.len
  rw [if_pos (by omega)] at h
  obtain ⟨s1, h1, h⟩ := bind_ok.mp h
  obtain ⟨⟨b, o, e⟩, a1, ⟨_, hcl, _⟩, hd⟩ := puts_fresh (lit := lit) h1
  obtain ⟨m1, l1⟩ := puts_most h1
  have hp : p.1 = eraseline { s1 with cursor := s.len } := by
    rw [← pure_ok.mp h]
    show eraseline { s1 with cursor := s1.len } = _
    rw [l1]
  have f : p.1.mojis = s1.mojis ∧ p.1.viewStart = 0 ∧ p.1.cursor = s.len ∧ p.1.topColumn = s.topColumn ∧
      p.1.termWidth = s.termWidth ∧ p.1.out = s1.out ++ [.eraseEol] := by
    rw [hp]
    refine ⟨rfl, ?_, rfl, ?_, ?_, rfl⟩
    · show s1.viewStart = 0; rw [e]; exact hv
    · show s1.topColumn = _; rw [e]
    · show s1.termWidth = _; rw [e]
  generalize p.1 = q at *
  obtain ⟨f1, f2, f3, f4, f5, f6⟩ := f
  have hl : q.len = s.len := by rw [← l1, ← mojis_length, ← mojis_length, f1]
  have hA1 : Ample E s1 := hA.congr m1 (by unfold St.viewWidth; rw [e])
  have hleft : s1.between 0 s.cursor = s.between 0 s.cursor := by
    rcases ha with ha | ha
    · rw [ha, between_empty _ (Int.le_refl _), between_empty _ (Int.le_refl _)]
    · obtain ⟨_, hm, _⟩ := puts_row (lit := lit) ha h1
      exact between_congr hm _ _
  have hsp : s1.mojis = s1.between 0 s.cursor ++ s1.between s.cursor s.len := by
    rw [← between_split hc hcl, between_all s1 (by omega)]
  obtain ⟨t, e2, hr⟩ := (hd.emit .eraseEol).of_out (s2 := q) f6
  refine ⟨t, e2, fun r hcol hcells => ?_⟩
  rw [hr]
  rw [← hleft] at hcol hcells
  obtain ⟨k1, k2⟩ := printErase (lit := lit) hS.width (c := s1.between s.cursor s.len) hcol hcells
  rw [← hsp] at k1 k2
  refine ⟨⟨f2, by rw [f3]; omega, by rw [f3, hl]; omega, ?_, ?_⟩, ?_⟩
  · rw [f3, f4, between_all q (by omega), f1]
    exact k2
  · rw [f4, f1]; exact k1
  · show (Row.puts E.cfg r _).high ≤ _
    apply puts_high (hS.wide _)
    · omega
    · have h9 := hA1.between hS 0 s.len
      rw [between_split hc hcl, columns_append] at h9
      have : s1.viewWidth = s.viewWidth := by unfold St.viewWidth; rw [e]
      have := St.lim s
      rw [hcol, f5]
      omega

theorem ready_entire (hS : Sane E lit) {r : Row} (h : Entire E s r) : ∀ x, s.topColumn ≤ x →
    x < s.topColumn + columns E.cfg (s.between 0 s.cursor) → r.cells x = layout E.cfg (s.between 0 s.cursor) s.topColumn x := by
  intro x hx hx2
  have hsp : s.mojis = s.between 0 s.cursor ++ s.between s.cursor s.len := by
    rw [← between_split h.low h.high, between_all s (Int.le_refl _)]
  rw [h.cells x hx]
  conv => lhs; rw [hsp]
  rw [layout_append (hS.wide _) (hS.wide _), if_pos hx2]

theorem killLine_entire (hS : Sane E lit) {p : St × Result} (h : cmdKillLine E s = .ok p) : Upholds E lit s p.1 := by
  unfold cmdKillLine at h
  obtain ⟨t, h1, h⟩ := bind_ok.mp h
  obtain ⟨tl, h2, h⟩ := bind_ok.mp h
  obtain ⟨hd, h3, h⟩ := bind_ok.mp h
  obtain ⟨c0, c1, c2, c3⟩ := slice_ok h3
  replace c1 : 0 ≤ s.cursor := c1
  replace c2 : s.cursor ≤ s.len := c2
  replace c3 : hd = (s.buf.take s.cursor.toNat).drop 0 := c3
  rw [List.drop_zero] at c3
  have hp : p.1.buf = hd ∧ p.1.viewStart = s.viewStart ∧ p.1.cursor = s.cursor ∧ p.1.topColumn = s.topColumn ∧
      p.1.termWidth = s.termWidth ∧ p.1.out = s.out ++ [.eraseEol] := by
    rw [← pure_ok.mp h]; exact ⟨rfl, rfl, rfl, rfl, rfl, rfl⟩
  obtain ⟨p1, p2, p3, p4, p5, p6⟩ := hp
  generalize p.1 = q at *
  have hm : q.mojis = s.between 0 s.cursor := by
    rw [between_zero]; unfold St.mojis; rw [p1, c3, List.map_take]
  have hlen : q.len = s.cursor := by
    rw [← mojis_length, hm, between_zero, List.length_take]
    have := mojis_length s
    omega
  refine Draws.upholds (((Draws.refl (s := s)).emit .eraseEol).of_out (s2 := q) p6) fun r hr => ?_
  obtain ⟨h4, h5⟩ := printErase (lit := lit) hS.width (c := []) hr.col (ready_entire hS hr)
  rw [List.append_nil] at h4
  refine ⟨⟨by rw [p2]; exact hr.start, by rw [p3]; exact hr.low, by rw [p3, hlen]; omega, ?_, ?_⟩, ?_⟩
  · rw [p3, p4, between_all q (by omega), hm]; exact hr.col
  · rw [p4, hm]; exact h4
  · exact Int.le_max_left _ _

theorem killWholeLine_lays {p : St × Result} (h : cmdKillWholeLine s = .ok p) : Lays E lit s p.1 := by
  unfold cmdKillWholeLine at h
  have hp : p.1.buf = [] ∧ p.1.viewStart = 0 ∧ p.1.cursor = 0 ∧ p.1.topColumn = s.topColumn ∧
      p.1.termWidth = s.termWidth ∧ p.1.out = s.out ++ [.gotoCol (s.topColumn + 1)] ++ [.eraseEol] := by
    rw [← pure_ok.mp h]; exact ⟨rfl, rfl, rfl, rfl, rfl, rfl⟩
  obtain ⟨p1, p2, p3, p4, p5, p6⟩ := hp
  generalize p.1 = q at *
  have hb : q.mojis = [] := by simp [St.mojis, p1]
  have hl : q.len = 0 := by unfold St.len; rw [p1]; rfl
  refine Draws.paints ((((Draws.refl (s := s)).emit (.gotoCol (s.topColumn + 1))).emit .eraseEol).of_out
    (s2 := q) p6) fun r => ⟨⟨p2, by omega, by omega, ?_, ?_⟩, Int.le_max_left _ _⟩
  · show s.topColumn + 1 - 1 = _
    rw [p3, p4, between_empty q (Int.le_refl _)]
    simp [columns]
  · rw [p4, hb]
    intro x hx
    show (if x ≥ s.topColumn + 1 - 1 then none else _) = _
    rw [if_pos (by omega)]
    rfl

/-! ## Commands that repaint -/

section
variable (hS : Sane E lit) (hP : E.predictColor.1 = [])
include hS hP

theorem beginningOfLine_lays {p : St × Result} (h : cmdBeginningOfLine E s = .ok p) (hA : Ample E p.1) :
    Lays E lit s p.1 := by
  unfold cmdBeginningOfLine at h
  obtain ⟨s1, h1, h⟩ := bind_ok.mp h
  have hp : p.1 = s1 := by rw [← pure_ok.mp h]
  rw [hp] at hA ⊢
  exact repaint_lays (s1 := { s with cursor := 0, viewStart := 0 }) hS hP (Silent.refl.of_out) h1 hA rfl

theorem backwardChar_upholds {p : St × Result} (h : cmdBackwardChar E s = .ok p) (hv : s.viewStart = 0)
    (hA : Ample E p.1) : Upholds E lit s p.1 := by
  unfold cmdBackwardChar at h
  split at h
  · cases h; exact Upholds.refl
  · rename_i hc
    obtain ⟨s1, h1, h⟩ := bind_ok.mp h
    have hp : p.1 = s1 := by rw [← pure_ok.mp h]
    rw [hp] at hA ⊢
    apply Paints.upholds
    rw [if_neg (by show ¬ s.cursor - 1 < s.viewStart; omega)] at h1
    exact repaint_lays (s1 := { s with cursor := s.cursor - 1 }) hS hP (Silent.refl.of_out) h1 hA hv

theorem deleteChar_lays {p : St × Result} (h : cmdDeleteChar E s = .ok p) (hv : s.viewStart = 0)
    (hA : Ample E p.1) : Lays E lit s p.1 := by
  unfold cmdDeleteChar at h
  obtain ⟨q, h0, h⟩ := bind_ok.mp h
  obtain ⟨s1, h1, h⟩ := bind_ok.mp h
  have hp : p.1 = s1 := by rw [← pure_ok.mp h]
  rw [hp] at hA ⊢
  obtain ⟨⟨b, u, e⟩, _⟩ := deleteCells_left h0
  exact repaint_lays hS hP (Silent.refl.of_out (by rw [e])) h1 hA (by rw [e]; exact hv)

omit hS hP in
theorem deleteCells_sub {pos n : Int} {q : St × Int} (h : deleteCells E s pos n = .ok q) (h0 : 0 ≤ pos) :
    q.1.mojis.Sublist s.mojis := by
  obtain ⟨_, h1, h2, h3⟩ := deleteCells_ok h
  unfold St.mojis
  rw [h3]
  split
  · exact List.Sublist.refl _
  · rename_i hn
    apply List.Sublist.map
    conv => rhs; rw [← List.take_append_drop pos.toNat s.buf]
    apply List.Sublist.append (List.Sublist.refl _)
    rw [← List.drop_drop]
    exact List.drop_sublist _ _

/-- Backspace: the row, and that the line still fits. -/
theorem backspace_upholds {p : St × Result} (h : cmdBackwardDeleteChar E s = .ok p) (hv : s.viewStart = 0)
    (hA : Ample E s) : Upholds E lit s p.1 ∧ Ample E p.1 ∧ p.1.termWidth = s.termWidth ∧ p.1.viewStart = 0 := by
  unfold cmdBackwardDeleteChar at h
  split at h
  · rename_i hc
    obtain ⟨q, h0, h⟩ := bind_ok.mp h
    obtain ⟨s1, h1, h⟩ := bind_ok.mp h
    have hp : p.1 = s1 := by rw [← pure_ok.mp h]
    rw [hp]
    obtain ⟨⟨b, u, e⟩, _⟩ := deleteCells_left h0
    have hsub := deleteCells_sub h0 (by show 0 ≤ s.cursor - 1; omega)
    have e1 : q.1.cursor = s.cursor - 1 ∧ q.1.viewStart = s.viewStart ∧ q.1.viewWidth = s.viewWidth ∧
        q.1.out = s.out ∧ q.1.termWidth = s.termWidth := by
      rw [e]; exact ⟨rfl, rfl, rfl, rfl, rfl⟩
    rw [if_neg (by rw [e1.1, e1.2.1]; omega)] at h1
    obtain ⟨m, hw⟩ := repaint_most h1
    have hA1 : Ample E s1 := (hA.sub hS (s' := q.1) hsub e1.2.2.1).congr m hw
    obtain ⟨f1, _, _, f4, _⟩ := repaint_fields h1
    refine ⟨?_, hA1, f4.trans e1.2.2.2.2, by rw [f1, e1.2.1]; exact hv⟩
    exact (repaint_lays hS hP (Silent.refl.of_out e1.2.2.2.1) h1 hA1 (by rw [e1.2.1]; exact hv)).upholds
  · cases h
    exact ⟨Upholds.refl, hA, rfl, hv⟩

theorem replace_lays {pos : Int} {t : Bytes} (hq : Silent E.cfg lit s s1)
    (h : replaceAndRepaint E s1 pos t = .ok s') (hA : Ample E s') : Lays E lit s s' := by
  unfold replaceAndRepaint at h
  obtain ⟨q, h0, h⟩ := bind_ok.mp h
  obtain ⟨q2, h1, h⟩ := bind_ok.mp h
  obtain ⟨⟨b, u, e⟩, _⟩ := deleteCells_left h0
  obtain ⟨_, _, _, _, ⟨b2, u2, e2⟩, _⟩ := insertString_ok h1
  dsimp only at h
  refine reset_lays hS hP (hq.of_out ?_) h hA
  rw [joinUndo_eq]
  show q2.1.out = _
  rw [e2, e]

theorem selfInsertTail_lays {t : Bytes} {p : St × Result} (h : selfInsertTail E s t = .ok p) (hv : s.viewStart = 0)
    (hA : Ample E p.1) : Lays E lit s p.1 := by
  unfold selfInsertTail at h
  obtain ⟨q, h0, h⟩ := bind_ok.mp h
  obtain ⟨w, h1, h⟩ := bind_ok.mp h
  obtain ⟨s1, h2, h⟩ := bind_ok.mp h
  have hp : p.1 = s1 := by rw [← pure_ok.mp h]
  rw [hp] at hA ⊢
  obtain ⟨_, _, _, _, ⟨b, u, e⟩, _⟩ := insertString_ok h0
  have e1 : q.1.viewStart = s.viewStart ∧ q.1.out = s.out := by
    rw [e]; exact ⟨rfl, rfl⟩
  split at h2
  · exact reset_lays (s1 := { q.1 with cursor := q.1.cursor + q.2.length }) hS hP (Silent.refl.of_out e1.2) h2 hA
  · exact repaint_lays (s1 := { q.1 with cursor := q.1.cursor + q.2.length }) hS hP (Silent.refl.of_out e1.2) h2 hA
      (e1.1.trans hv)

theorem selfInsert_upholds {k : Bytes} {p : St × Result} (h : cmdSelfInsert E k s = .ok p) (hv : s.viewStart = 0)
    (hA : Ample E s) (hA' : Ample E p.1) : Upholds E lit s p.1 ∧ p.1.termWidth = s.termWidth := by
  unfold cmdSelfInsert at h
  dsimp only at h
  split at h
  · obtain ⟨c, h0, h⟩ := bind_ok.mp h
    obtain ⟨a, _, b, _⟩ := backspace_upholds hS hP h hv hA
    exact ⟨a.of_state, b⟩
  · split at h
    · obtain ⟨c, h0, h⟩ := bind_ok.mp h
      obtain ⟨q, h1, h⟩ := bind_ok.mp h
      obtain ⟨k1, k2, k3, k4⟩ := backspace_upholds hS hP h1 hv hA
      have h2 := selfInsertTail_lays hS hP h k4 hA'
      obtain ⟨f1, f2⟩ := selfInsertTail_fields h
      exact ⟨k1.trans h2.upholds f2, f2.trans k3⟩
    · split at h
      · have h2 := selfInsertTail_lays hS hP h hv hA'
        obtain ⟨f1, f2⟩ := selfInsertTail_fields h
        exact ⟨(Paints.silent h2 (Silent.refl.of_out)).upholds, f2⟩
      · have h2 := selfInsertTail_lays hS hP h hv hA'
        obtain ⟨f1, f2⟩ := selfInsertTail_fields h
        exact ⟨h2.upholds, f2⟩

theorem wordRubout_lays {p : St × Result} (h : cmdUnixWordRubout E s = .ok p) (hv : s.viewStart = 0)
    (hA : Ample E p.1) : Lays E lit s p.1 := by
  unfold cmdUnixWordRubout at h
  obtain ⟨_, _, h⟩ := bind_ok.mp h
  obtain ⟨new, h1, h⟩ := bind_ok.mp h
  obtain ⟨t, h2, h⟩ := bind_ok.mp h
  obtain ⟨q, h3, h⟩ := bind_ok.mp h
  obtain ⟨s1, h4, h⟩ := bind_ok.mp h
  have hp : p.1 = s1 := by rw [← pure_ok.mp h]
  rw [hp] at hA ⊢
  obtain ⟨⟨b, u, e⟩, _⟩ := deleteCells_left h3
  have e1 : q.1.viewStart = s.viewStart ∧ q.1.out = s.out := by rw [e]; exact ⟨rfl, rfl⟩
  split at h4
  · exact reset_lays (s1 := { q.1 with cursor := new }) hS hP (Silent.refl.of_out e1.2) h4 hA
  · exact repaint_lays (s1 := { q.1 with cursor := new }) hS hP (Silent.refl.of_out e1.2) h4 hA (e1.1.trans hv)

theorem lineDiscard_lays {p : St × Result} (h : cmdUnixLineDiscard E s = .ok p) (hA : Ample E p.1) :
    Lays E lit s p.1 := by
  unfold cmdUnixLineDiscard at h
  obtain ⟨t, h2, h⟩ := bind_ok.mp h
  obtain ⟨q, h3, h⟩ := bind_ok.mp h
  obtain ⟨s1, h4, h⟩ := bind_ok.mp h
  have hp : p.1 = s1 := by rw [← pure_ok.mp h]
  rw [hp] at hA ⊢
  obtain ⟨⟨b, u, e⟩, _⟩ := deleteCells_left h3
  refine repaint_lays (s1 := { q.1 with cursor := 0, viewStart := 0 }) hS hP (Silent.refl.of_out ?_) h4 hA rfl
  show q.1.out = _
  rw [e]

theorem backwardWord_lays {p : St × Result} (h : cmdBackwardWord E s = .ok p) (hv : s.viewStart = 0)
    (hA : Ample E p.1) : Lays E lit s p.1 := by
  unfold cmdBackwardWord at h
  obtain ⟨_, h0, h⟩ := bind_ok.mp h
  obtain ⟨s1, h4, h⟩ := bind_ok.mp h
  have hp : p.1 = s1 := by rw [← pure_ok.mp h]
  rw [hp] at hA ⊢
  rw [if_neg (by rw [hv]; omega)] at h4
  exact repaint_lays (s1 := { s with cursor := _ }) hS hP (Silent.refl.of_out) h4 hA hv

theorem forwardWord_upholds {p : St × Result} (h : cmdForwardWord E s = .ok p) (ha : s.aligned E) (hA : Ample E s)
    (hA' : Ample E p.1) : Upholds E lit s p.1 := by
  unfold cmdForwardWord at h
  obtain ⟨_, h0, h⟩ := bind_ok.mp h
  obtain ⟨w, h1, h⟩ := bind_ok.mp h
  split at h
  · obtain ⟨s1, h2, h⟩ := bind_ok.mp h
    have hp : p.1 = { s1 with cursor := (forwardWordPos s.buf s.cursor.toNat : Nat) } := by rw [← pure_ok.mp h]
    rw [hp]
    exact advance_entire hS ha hA h2
  · obtain ⟨s1, h2, h⟩ := bind_ok.mp h
    have hp : p.1 = s1 := by rw [← pure_ok.mp h]
    rw [hp] at hA' ⊢
    exact (reset_lays (s1 := { s with cursor := (forwardWordPos s.buf s.cursor.toNat : Nat) }) hS hP
      (Silent.refl.of_out) h2 hA').upholds

theorem forwardChar_upholds {p : St × Result} (h : cmdForwardChar E s = .ok p) (hv : s.viewStart = 0)
    (ha : s.aligned E) (hA : Ample E s) (hA' : Ample E p.1) : Upholds E lit s p.1 := by
  unfold cmdForwardChar at h
  split at h
  · split at h
    · obtain ⟨s1, h1, h⟩ := bind_ok.mp h
      have hp : p.1 = s1 := by rw [← pure_ok.mp h]
      rw [hp] at hA' ⊢
      exact (replace_lays hS hP Silent.refl h1 hA').upholds
    · cases h; exact Upholds.refl
  · obtain ⟨w, h1, h⟩ := bind_ok.mp h
    obtain ⟨_, _, _, hw⟩ := widthBetween_columns h1
    rw [hv] at hw
    have := hA.between hS 0 (s.cursor + 1)
    rw [if_pos (by omega)] at h
    obtain ⟨s1, h2, h⟩ := bind_ok.mp h
    have hc : s1.cursor = s.cursor := by
      obtain ⟨⟨b, o, e⟩, _⟩ := puts_row (lit := lit) ha h2
      rw [e]
    have hp : p.1 = { s1 with cursor := s.cursor + 1 } := by
      rw [← pure_ok.mp h]
      show ({ s1 with cursor := s1.cursor + 1 } : St) = _
      rw [hc]
    rw [hp]
    exact advance_entire hS ha hA h2

theorem undo_upholds {p : St × Result} (h : cmdUndo E s = .ok p) (hA : Ample E p.1) : Upholds E lit s p.1 := by
  unfold cmdUndo at h
  split at h
  · have hp : p.1 = s.emit (.lit [7]) := by rw [← pure_ok.mp h]
    rw [hp]
    exact Upholds.refl.emit _ hS.bell
  · rename_i u rest hu
    obtain ⟨b1, h1, h⟩ := bind_ok.mp h
    obtain ⟨s2, h2, h⟩ := bind_ok.mp h
    obtain ⟨s3, h3, h⟩ := bind_ok.mp h
    have hp : p.1 = s3 := by rw [← pure_ok.mp h]
    rw [hp] at hA ⊢
    refine (reset_lays (s1 := s2) hS hP ?_ h3 hA).upholds
    have hq : Silent E.cfg lit s (gotoHead { s with undoes := rest }) := by
      refine Silent.goto ?_
      exact Silent.refl.of_out
    refine hq.of_out ?_
    split at h2
    · obtain ⟨b2, h4, h2⟩ := bind_ok.mp h2
      have := pure_ok.mp h2
      rw [← this]
    · have := pure_ok.mp h2
      rw [← this]

theorem repaintAll_lays (hq : Silent E.cfg lit s s1) (hv : s1.viewStart = 0) (h : repaintAll E s1 = .ok s')
    (hA : Ample E s') : Lays E lit s s' := by
  unfold repaintAll at h
  obtain ⟨f1, f2, f3, f4⟩ := callPrompt_fields (E := E) (s := s1.emit .flush)
  have hq' := callPrompt_silent hS (hq.emit .flush fun _ => rfl)
  exact repaint_lays (s1 := { (callPromptWriter E (s1.emit .flush)).2 with
    topColumn := (callPromptWriter E (s1.emit .flush)).1 }) hS hP (hq'.of_out) h hA (f3.trans hv)

omit hP in
theorem endOfLine_most (hv : s.viewStart = 0) (hA : mostOf E.cfg s.mojis < s.viewWidth) {p : St × Result}
    (h : cmdEndOfLine E s = .ok p) : p.1.termWidth = s.termWidth := by
  unfold cmdEndOfLine at h
  obtain ⟨w, h0, h⟩ := bind_ok.mp h
  obtain ⟨_, _, _, hw⟩ := widthBetween_columns h0
  rw [hv] at hw
  have hlt := Ample.between hS (s := s) hA 0 s.len
  rw [if_pos (by omega)] at h
  obtain ⟨s1, h1, h⟩ := bind_ok.mp h
  obtain ⟨⟨b, o, e⟩, _⟩ := puts_fresh (lit := lit) h1
  rw [← pure_ok.mp h]
  show s1.termWidth = _
  rw [e]

omit hS hP in
theorem endOfLine_room {p : St × Result} (h : cmdEndOfLine E s = .ok p) :
    mostOf E.cfg p.1.mojis = mostOf E.cfg s.mojis ∧ p.1.viewWidth = s.viewWidth := by
  unfold cmdEndOfLine at h
  obtain ⟨w, h0, h⟩ := bind_ok.mp h
  split at h
  · obtain ⟨s1, h1, h⟩ := bind_ok.mp h
    obtain ⟨⟨b, o, e⟩, _⟩ := puts_fresh (lit := fun _ r => r) h1
    rw [← pure_ok.mp h]
    refine ⟨(puts_most h1).1, ?_⟩
    show s1.viewWidth = _
    rw [e]; rfl
  · obtain ⟨c, h1, h⟩ := bind_ok.mp h
    obtain ⟨s1, h2, h⟩ := bind_ok.mp h
    obtain ⟨⟨b, o, e⟩, _⟩ := puts_fresh (lit := fun _ r => r) h2
    rw [← pure_ok.mp h]
    refine ⟨(puts_most h2).1, ?_⟩
    show s1.viewWidth = _
    rw [e]; rfl

theorem showHistory_upholds {p : St × Result} (h : showHistory E s = .ok p) (hA : Ample E p.1) :
    Upholds E lit s p.1 := by
  unfold showHistory at h
  obtain ⟨q, h1, h⟩ := bind_ok.mp h
  obtain ⟨t, h2, h⟩ := bind_ok.mp h
  have hk := killWholeLine_lays (E := E) (lit := lit) h1
  split at h
  · obtain ⟨q2, h3, h⟩ := bind_ok.mp h
    obtain ⟨q3, h4, h⟩ := bind_ok.mp h
    have hp : p.1 = q3.1 := by rw [← pure_ok.mp h]
    rw [hp] at hA ⊢
    obtain ⟨_, _, _, _, ⟨b, u, e⟩, _⟩ := insertString_ok h3
    generalize hst : ({ q2.1 with viewStart := 0, cursor := 0 } : St) = st at h4
    have t0 : st.viewStart = 0 := by rw [← hst]
    have t1 : st.cursor = 0 := by rw [← hst]
    have t2 : st.topColumn = q.1.topColumn := by rw [← hst]; show q2.1.topColumn = _; rw [e]
    have t3 : st.termWidth = q.1.termWidth := by rw [← hst]; show q2.1.termWidth = _; rw [e]
    have t4 : st.out = q.1.out := by rw [← hst]; show q2.1.out = _; rw [e]
    obtain ⟨r1, r2⟩ := endOfLine_room h4
    have hAs : Ample E st := hA.congr r1.symm r2.symm
    have hw := endOfLine_most hS t0 hAs h4
    obtain ⟨u2, e2, k2⟩ := endOfLine_entire (lit := lit) hS t0 hAs (by omega) (Or.inl t1) h4
    obtain ⟨u1, e1, k1⟩ := hk
    refine ⟨u1 ++ u2, by rw [e2, t4, e1, List.append_assoc], fun r _ => ?_⟩
    rw [run_append]
    have a := k1 r
    have hz : q.1.cursor = 0 := by
      unfold cmdKillWholeLine at h1
      rw [← pure_ok.mp h1]
    have hb := between_empty st (lo := 0) (hi := st.cursor) (by omega)
    have hb' := between_empty q.1 (lo := 0) (hi := q.1.cursor) (by omega)
    have := k2 (Row.run E.cfg lit r u1) (by rw [hb, t2, a.1.col, hb']) (by
      intro x hx hx2; rw [hb] at hx2; simp only [columns] at hx2; omega)
    refine ⟨this.1, ?_⟩
    have h5 := this.2
    have h6 := a.2
    rw [hw, t3] at h5 ⊢
    omega
  · have hp : p.1 = q.1 := by rw [← pure_ok.mp h]
    rw [hp]
    exact hk.upholds

end
end Readline
