import Verif.Proof.VisSwap
import Verif.Proof.Waits
/-!
# Every command keeps the row right
-/
namespace Readline
open Spec

variable {C : Cfg} {E : Env} {lit : Bytes → Row → Row} {s s1 s' : St}

theorem Silent.goto (h : Silent C lit s s1) : Silent C lit s (gotoHead s1) := h.emit _ fun _ => rfl

theorem same_fields {s s' : St} (h : Same s s') : s'.viewStart = s.viewStart ∧ s'.cursor = s.cursor ∧
    s'.topColumn = s.topColumn ∧ s'.termWidth = s.termWidth ∧ s'.input = s.input ∧ s'.promptN = s.promptN := by
  obtain ⟨_, b, o, e⟩ := h
  rw [e]; exact ⟨rfl, rfl, rfl, rfl, rfl, rfl⟩

/-- What a repaint does not change. -/
theorem repaint_fields (h : repaint E s = .ok s') : s'.viewStart = s.viewStart ∧ s'.cursor = s.cursor ∧
    s'.topColumn = s.topColumn ∧ s'.termWidth = s.termWidth ∧ s'.input = s.input ∧ s'.line = s.line ∧
    0 ≤ s.viewStart ∧ s.viewStart ≤ s.cursor ∧ s.cursor ≤ s.len := by
  obtain ⟨x, e⟩ := updateSuffix_eq E s
  obtain ⟨h1, h2, h3, h4⟩ := repaint_same h
  obtain ⟨f1, f2, f3, f4, f5, _⟩ := same_fields h1
  rw [e] at f1 f2 f3 f4 f5
  refine ⟨f1, f2, f3, f4, f5, ?_, h2, h3, h4⟩
  rw [h1.1, e]; rfl

/-- A repaint, when the units from `ViewStart` to the cursor fit. -/
theorem fit_paints (hS : Sane E lit) (hq : Silent E.cfg lit s s1) (h : repaint E s1 = .ok s') (hF : Fine E s')
    (hv : columns E.cfg (s1.between s1.viewStart s1.cursor) < s1.viewWidth) : Repaints E lit s s' := by
  obtain ⟨_, _, _, _, _, _, a, b, c⟩ := repaint_fields h
  exact repaint_paints hS hq h hF.tabs fun _ _ => ⟨a, b, c, hv⟩

theorem viewWidth_eq (h1 : s'.topColumn = s.topColumn) (h2 : s'.termWidth = s.termWidth) :
    s'.viewWidth = s.viewWidth := by unfold St.viewWidth; rw [h1, h2]

/-- … when the cursor is at the start of the view. -/
theorem start_paints (hS : Sane E lit) (hq : Silent E.cfg lit s s1) (h : repaint E s1 = .ok s') (hF : Fine E s')
    (hv : s1.cursor ≤ s1.viewStart) : Repaints E lit s s' := by
  obtain ⟨_, _, h1, h2, _⟩ := repaint_fields h
  refine fit_paints hS hq h hF ?_
  rw [between_empty s1 hv, ← viewWidth_eq h1 h2]
  exact hF.view

/-- … after `ResetViewStart`. -/
theorem reset_paints (hS : Sane E lit) (hq : Silent E.cfg lit s s1) (h : repaint E (resetViewStart E s1) = .ok s')
    (hF : Fine E s') : Repaints E lit s s' := by
  obtain ⟨_, _, h1, h2, _, _, a, b, c⟩ := repaint_fields h
  refine repaint_paints hS (s1 := resetViewStart E s1) (hq.of_out) h hF.tabs fun hm hw => ?_
  have hm' : s'.mojis = s1.mojis := hm
  have hw' : s'.viewWidth = s1.viewWidth := hw
  refine reset_inView hS (by rw [← hw']; exact hF.view) (by rw [← hw', ← hm']; exact hF.narrow) ?_ c
  exact Int.le_trans a b

/-- … when the text left of the cursor is as it was and the cursor did not move to the right. -/
theorem left_paints (hS : Sane E lit) (hq : Silent E.cfg lit s s1) (h : repaint E s1 = .ok s') (hF : Fine E s')
    (hV : InView E s) (hc : s1.cursor ≤ s.cursor) (hvs : s.viewStart ≤ s1.viewStart)
    (hm : s1.mojis.take s1.cursor.toNat = s.mojis.take s1.cursor.toNat)
    (hw : s.viewWidth ≤ s1.viewWidth) : Repaints E lit s s' := by
  obtain ⟨_, _, h1, h2, _, _, a, b, c⟩ := repaint_fields h
  refine fit_paints hS hq h hF ?_
  have e : s1.between s1.viewStart s1.cursor = s.between s1.viewStart s1.cursor := by
    unfold St.between; rw [hm]
  rw [e]
  have l1 := columns_between_le (s := s) hS b hc
  have l2 : columns E.cfg (s.between s1.viewStart s.cursor) ≤ columns E.cfg (s.between s.viewStart s.cursor) := by
    rw [between_split hvs (Int.le_trans b hc), columns_append]
    have := (hS.wide (s.between s.viewStart s1.viewStart)).columns
    omega
  have := hV.fits
  omega

/-! ## Commands that repaint -/

theorem beginningOfLine_paints (hS : Sane E lit) {p : St × Result} (h : cmdBeginningOfLine E s = .ok p)
    (hF : Fine E p.1) : Repaints E lit s p.1 := by
  unfold cmdBeginningOfLine at h
  obtain ⟨s1, h1, h⟩ := bind_ok.mp h
  have hp : p.1 = s1 := by rw [← pure_ok.mp h]
  rw [hp] at hF ⊢
  exact start_paints (s1 := { s with cursor := 0, viewStart := 0 }) hS (Silent.refl.of_out) h1 hF (Int.le_refl _)

theorem backwardChar_keeps (hS : Sane E lit) {p : St × Result} (h : cmdBackwardChar E s = .ok p)
    (hV : InView E s) (hF : Fine E p.1) : Keeps E lit s p.1 := by
  unfold cmdBackwardChar at h
  split at h
  · cases h; exact Keeps.refl
  · rename_i hc
    obtain ⟨s1, h1, h⟩ := bind_ok.mp h
    have hp : p.1 = s1 := by rw [← pure_ok.mp h]
    rw [hp] at hF ⊢
    apply Paints.keeps
    by_cases hlt : s.cursor - 1 < s.viewStart
    · rw [if_pos hlt] at h1
      refine start_paints (s1 := { s with cursor := s.cursor - 1, viewStart := s.viewStart - 1 }) hS
        (Silent.refl.of_out) h1 hF ?_
      show s.cursor - 1 ≤ s.viewStart - 1
      omega
    · rw [if_neg hlt] at h1
      exact left_paints (s1 := { s with cursor := s.cursor - 1 }) hS (Silent.refl.of_out) h1 hF hV
        (by show s.cursor - 1 ≤ s.cursor; omega) (Int.le_refl _) rfl (Int.le_refl _)

theorem deleteCells_left {pos n : Int} {q : St × Int} (h : deleteCells E s pos n = .ok q) :
    (∃ b u, q.1 = { s with buf := b, undoes := u }) ∧
    (0 ≤ pos → ∀ k : Nat, (k : Int) ≤ pos → q.1.mojis.take k = s.mojis.take k) ∧ (∀ m ∈ q.1.mojis, m ∈ s.mojis) := by
  obtain ⟨_, h1, h2, h3⟩ := deleteCells_ok h
  refine ⟨h1, ?_, ?_⟩
  · intro h0 k hk
    unfold St.mojis
    rw [h3]
    split
    · rfl
    · rename_i hc
      rw [List.map_append, List.take_append_of_le_length, List.map_take, List.take_take]
      · congr 1; omega
      · rw [List.length_map, List.length_take]
        unfold St.len at hc
        omega
  · intro m hm
    unfold St.mojis at hm ⊢
    rw [h3] at hm
    split at hm
    · exact hm
    · rw [List.mem_map] at hm ⊢
      obtain ⟨c, hc, e⟩ := hm
      refine ⟨c, ?_, e⟩
      rcases List.mem_append.mp hc with hc | hc
      · exact List.mem_of_mem_take hc
      · exact List.mem_of_mem_drop hc

theorem deleteChar_paints (hS : Sane E lit) {p : St × Result} (h : cmdDeleteChar E s = .ok p)
    (hV : InView E s) (hF : Fine E p.1) : Repaints E lit s p.1 := by
  unfold cmdDeleteChar at h
  obtain ⟨q, h0, h⟩ := bind_ok.mp h
  obtain ⟨s1, h1, h⟩ := bind_ok.mp h
  have hp : p.1 = s1 := by rw [← pure_ok.mp h]
  rw [hp] at hF ⊢
  obtain ⟨⟨b, u, e⟩, hl, _⟩ := deleteCells_left h0
  have e1 : q.1.cursor = s.cursor ∧ q.1.viewStart = s.viewStart ∧ q.1.viewWidth = s.viewWidth ∧ q.1.out = s.out := by
    rw [e]; exact ⟨rfl, rfl, rfl, rfl⟩
  have hc0 := Int.le_trans hV.low hV.mid
  refine left_paints hS (Silent.refl.of_out e1.2.2.2) h1 hF hV (by rw [e1.1]; omega) (by rw [e1.2.1]; omega) ?_
    (by rw [e1.2.2.1]; omega)
  rw [e1.1]
  exact hl hc0 _ (by omega)

theorem repaint_mojis (h : repaint E s1 = .ok s') (hT : ∀ p, Moji.tab p ∉ s1.mojis) : s'.mojis = s1.mojis := by
  obtain ⟨x, e⟩ := updateSuffix_eq E s1
  have ha' : (updateSuffix E s1).aligned E := by
    rw [e]; exact St.noTabs_aligned (E := E) hT
  obtain ⟨hm, _⟩ := repaintNoSuffix_mojis ha' h
  rw [hm, e]; rfl

theorem Spec.Fine.sub (hF : Fine E s) (hm : ∀ m ∈ s'.mojis, m ∈ s.mojis) (hw : s'.viewWidth = s.viewWidth) : Fine E s' := by
  obtain ⟨k, hk⟩ := hF.even
  exact ⟨fun p hp => hF.tabs p (hm _ hp), by rw [hw]; exact hF.view, by rw [hw]; exact fun m h => hF.narrow m (hm m h),
    k, fun m h => hk m (hm m h)⟩

/-- Backspace: the row, and that only units of the line remain. -/
theorem backspace_keeps (hS : Sane E lit) {p : St × Result} (h : cmdBackwardDeleteChar E s = .ok p)
    (hV : InView E s) (hF : Fine E s) : Keeps E lit s p.1 ∧ Fine E p.1 ∧ p.1.termWidth = s.termWidth ∧
      p.1.viewWidth = s.viewWidth := by
  unfold cmdBackwardDeleteChar at h
  split at h
  · rename_i hc
    obtain ⟨q, h0, h⟩ := bind_ok.mp h
    obtain ⟨s1, h1, h⟩ := bind_ok.mp h
    have hp : p.1 = s1 := by rw [← pure_ok.mp h]
    rw [hp]
    obtain ⟨⟨b, u, e⟩, hl, hmem⟩ := deleteCells_left h0
    have e1 : q.1.cursor = s.cursor - 1 ∧ q.1.viewStart = s.viewStart ∧ q.1.viewWidth = s.viewWidth ∧
        q.1.out = s.out ∧ q.1.topColumn = s.topColumn ∧ q.1.termWidth = s.termWidth := by
      rw [e]; exact ⟨rfl, rfl, rfl, rfl, rfl, rfl⟩
    generalize hst : (if q.1.cursor < q.1.viewStart then { q.1 with viewStart := q.1.cursor } else q.1) = st at h1
    have t : st.mojis = q.1.mojis ∧ st.cursor = s.cursor - 1 ∧ st.out = s.out ∧ st.topColumn = s.topColumn ∧
        st.termWidth = s.termWidth ∧
        st.viewStart = (if s.cursor - 1 < s.viewStart then s.cursor - 1 else s.viewStart) := by
      rw [← hst, ← e1.1, ← e1.2.1]
      split
      · exact ⟨rfl, rfl, e1.2.2.2.1, e1.2.2.2.2.1, e1.2.2.2.2.2, rfl⟩
      · exact ⟨rfl, rfl, e1.2.2.2.1, e1.2.2.2.2.1, e1.2.2.2.2.2, rfl⟩
    obtain ⟨t1, t2, t3, t4, t5, t6⟩ := t
    have hsub : ∀ m ∈ st.mojis, m ∈ s.mojis := by rw [t1]; exact hmem
    obtain ⟨_, _, f3, f4, _⟩ := repaint_fields h1
    have hw : s1.viewWidth = s.viewWidth := viewWidth_eq (f3.trans t4) (f4.trans t5)
    have hm1 := repaint_mojis h1 (fun p hp => hF.tabs p (hsub _ hp))
    have hF1 : Fine E s1 := hF.sub (by rw [hm1]; exact hsub) hw
    refine ⟨?_, hF1, f4.trans t5, hw⟩
    apply Paints.keeps
    by_cases hlt : s.cursor - 1 < s.viewStart
    · rw [if_pos hlt] at t6
      exact start_paints hS (Silent.refl.of_out t3) h1 hF1 (by rw [t2, t6]; omega)
    · rw [if_neg hlt] at t6
      refine left_paints hS (Silent.refl.of_out t3) h1 hF1 hV (by rw [t2]; omega) (by rw [t6]; omega) ?_
        (by rw [viewWidth_eq t4 t5]; omega)
      rw [t1, t2]
      exact hl (by show 0 ≤ s.cursor - 1; omega) _ (by show _ ≤ s.cursor - 1; omega)
  · cases h
    exact ⟨Keeps.refl, hF, rfl, rfl⟩

theorem Keeps.trans {s1 s2 s3 : St} (h : Keeps E lit s1 s2) (h' : Keeps E lit s2 s3)
    (hw : s3.termWidth = s2.termWidth) : Keeps E lit s1 s3 := by
  obtain ⟨t1, e1, r1⟩ := h
  obtain ⟨t2, e2, r2⟩ := h'
  refine ⟨t1 ++ t2, by rw [e2, e1, List.append_assoc], fun r hs => ?_⟩
  rw [run_append]
  have a := r1 r hs
  have b := r2 _ a.1
  refine ⟨b.1, ?_⟩
  have := b.2
  have := a.2
  rw [hw] at *
  omega

theorem replace_paints {pos : Int} {t : Bytes} (hS : Sane E lit) (hq : Silent E.cfg lit s s1)
    (h : replaceAndRepaint E s1 pos t = .ok s') (hF : Fine E s') : Repaints E lit s s' := by
  unfold replaceAndRepaint at h
  obtain ⟨q, h0, h⟩ := bind_ok.mp h
  obtain ⟨q2, h1, h⟩ := bind_ok.mp h
  obtain ⟨⟨b, u, e⟩, _⟩ := deleteCells_left h0
  obtain ⟨_, _, _, _, ⟨b2, u2, e2⟩, _⟩ := insertString_ok h1
  dsimp only at h
  refine reset_paints hS (hq.of_out ?_) h hF
  rw [joinUndo_eq]
  show q2.1.out = _
  rw [e2, e]

theorem replace_fields {pos : Int} {t : Bytes} (h : replaceAndRepaint E s1 pos t = .ok s') :
    s'.topColumn = s1.topColumn ∧ s'.termWidth = s1.termWidth ∧ s'.input = s1.input := by
  unfold replaceAndRepaint at h
  obtain ⟨q, h0, h⟩ := bind_ok.mp h
  obtain ⟨q2, h1, h⟩ := bind_ok.mp h
  obtain ⟨⟨b, u, e⟩, _⟩ := deleteCells_left h0
  obtain ⟨_, _, _, _, ⟨b2, u2, e2⟩, _⟩ := insertString_ok h1
  dsimp only at h
  obtain ⟨_, _, f3, f4, f5, _⟩ := repaint_fields h
  rw [f3, f4, f5, joinUndo_eq]
  show q2.1.topColumn = _ ∧ q2.1.termWidth = _ ∧ q2.1.input = _
  rw [e2, e]
  exact ⟨rfl, rfl, rfl⟩

theorem selfInsertTail_keeps {t : Bytes} (hS : Sane E lit) {p : St × Result} (h : selfInsertTail E s t = .ok p)
    (hF : Fine E p.1) : Repaints E lit s p.1 := by
  unfold selfInsertTail at h
  obtain ⟨q, h0, h⟩ := bind_ok.mp h
  obtain ⟨w, h1, h⟩ := bind_ok.mp h
  obtain ⟨s1, h2, h⟩ := bind_ok.mp h
  have hp : p.1 = s1 := by rw [← pure_ok.mp h]
  rw [hp] at hF ⊢
  obtain ⟨⟨p0, p1⟩, _, hq2, _, ⟨b, u, e⟩, hbuf⟩ := insertString_ok h0
  obtain ⟨a0, a1, a2, hw⟩ := widthBetween_columns h1
  have e1 : q.1.cursor = s.cursor ∧ q.1.viewStart = s.viewStart ∧ q.1.out = s.out := by
    rw [e]; exact ⟨rfl, rfl, rfl⟩
  split at h2
  · exact reset_paints (s1 := { q.1 with cursor := q.1.cursor + q.2.length }) hS (Silent.refl.of_out e1.2.2) h2 hF
  · rename_i hlt
    refine fit_paints (s1 := { q.1 with cursor := q.1.cursor + q.2.length }) hS (Silent.refl.of_out e1.2.2) h2 hF ?_
    show columns E.cfg (q.1.between q.1.viewStart (q.1.cursor + q.2.length)) < q.1.viewWidth
    replace hlt : ¬ (w + cellsWidth E.cfg q.2 ≥ q.1.viewWidth) := hlt
    have hins : q.1.between q.1.cursor (q.1.cursor + q.2.length) = q.2.map Cell.moji := by
      unfold St.between St.mojis
      rw [hbuf, e1.1, List.map_append, List.map_append]
      have hl : ((s.buf.take s.cursor.toNat).map Cell.moji).length = s.cursor.toNat := by
        rw [List.length_map, List.length_take]; unfold St.len at p1; omega
      have : (s.cursor + (q.2.length : Int)).toNat = s.cursor.toNat + (q.2.map Cell.moji).length := by
        rw [List.length_map]; omega
      rw [this, List.append_assoc, List.take_append, List.drop_append, hl]
      rw [Nat.add_sub_cancel_left, List.take_append_of_le_length (Nat.le_refl _), List.take_length,
        List.drop_eq_nil_of_le (by rw [List.length_take]; omega), List.length_take, hl, List.nil_append]
      rw [Nat.min_eq_right (by omega), Nat.sub_self, List.drop_zero]
    rw [between_split (mid := q.1.cursor) a1 (by omega), columns_append, hins, ← hw]
    have : columns E.cfg (q.2.map Cell.moji) = cellsWidth E.cfg q.2 := by
      rw [columns_eq, cellsWidth_mojis]
    omega

theorem selfInsertTail_fields {t : Bytes} {p : St × Result} (h : selfInsertTail E s t = .ok p) :
    p.1.topColumn = s.topColumn ∧ p.1.termWidth = s.termWidth := by
  unfold selfInsertTail at h
  obtain ⟨q, h0, h⟩ := bind_ok.mp h
  obtain ⟨w, h1, h⟩ := bind_ok.mp h
  obtain ⟨s1, h2, h⟩ := bind_ok.mp h
  have hp : p.1 = s1 := by rw [← pure_ok.mp h]
  obtain ⟨_, _, _, _, ⟨b, u, e⟩, _⟩ := insertString_ok h0
  obtain ⟨_, _, f3, f4, _⟩ := repaint_fields h2
  rw [hp, f3, f4]
  split
  · show q.1.topColumn = _ ∧ q.1.termWidth = _
    rw [e]; exact ⟨rfl, rfl⟩
  · show q.1.topColumn = _ ∧ q.1.termWidth = _
    rw [e]; exact ⟨rfl, rfl⟩

theorem selfInsert_keeps {k : Bytes} (hS : Sane E lit) {p : St × Result} (h : cmdSelfInsert E k s = .ok p)
    (hV : InView E s) (hF : Fine E s) (hF' : Fine E p.1) : Keeps E lit s p.1 ∧ p.1.termWidth = s.termWidth := by
  unfold cmdSelfInsert at h
  dsimp only at h
  split at h
  · obtain ⟨c, h0, h⟩ := bind_ok.mp h
    have := backspace_keeps (lit := lit) hS h hV.congr (hF.sub (fun m hm => hm) rfl)
    obtain ⟨⟨t, e, hr⟩, _, h2, _⟩ := this
    exact ⟨⟨t, e, fun r hs => hr r (hs.congr)⟩, h2⟩
  · split at h
    · obtain ⟨c, h0, h⟩ := bind_ok.mp h
      obtain ⟨q, h1, h⟩ := bind_ok.mp h
      obtain ⟨k1, k2, k3, k4⟩ := backspace_keeps (lit := lit) hS h1 hV hF
      have h2 := selfInsertTail_keeps hS h hF'
      obtain ⟨f1, f2⟩ := selfInsertTail_fields h
      exact ⟨k1.trans h2.keeps f2, f2.trans k3⟩
    · split at h
      · have h2 := selfInsertTail_keeps hS h hF'
        obtain ⟨f1, f2⟩ := selfInsertTail_fields h
        exact ⟨(Paints.silent h2 (Silent.refl.of_out)).keeps, f2⟩
      · have h2 := selfInsertTail_keeps hS h hF'
        obtain ⟨f1, f2⟩ := selfInsertTail_fields h
        exact ⟨h2.keeps, f2⟩

theorem wordRubout_keeps (hS : Sane E lit) {p : St × Result} (h : cmdUnixWordRubout E s = .ok p)
    (hV : InView E s) (hF : Fine E p.1) : Repaints E lit s p.1 := by
  unfold cmdUnixWordRubout at h
  obtain ⟨_, _, h⟩ := bind_ok.mp h
  obtain ⟨new, h1, h⟩ := bind_ok.mp h
  obtain ⟨t, h2, h⟩ := bind_ok.mp h
  obtain ⟨q, h3, h⟩ := bind_ok.mp h
  obtain ⟨s1, h4, h⟩ := bind_ok.mp h
  have hp : p.1 = s1 := by rw [← pure_ok.mp h]
  rw [hp] at hF ⊢
  obtain ⟨a0, a1, a2, _⟩ := subString_ok h2
  obtain ⟨⟨b, u, e⟩, hl, _⟩ := deleteCells_left h3
  have e1 : q.1.viewStart = s.viewStart ∧ q.1.viewWidth = s.viewWidth ∧ q.1.out = s.out := by
    rw [e]; exact ⟨rfl, rfl, rfl⟩
  split at h4
  · exact reset_paints (s1 := { q.1 with cursor := new }) hS (Silent.refl.of_out e1.2.2) h4 hF
  · refine left_paints (s1 := { q.1 with cursor := new }) hS (Silent.refl.of_out e1.2.2) h4 hF hV a1
      (by show _ ≤ q.1.viewStart; rw [e1.1]; omega) ?_ (by show _ ≤ q.1.viewWidth; rw [e1.2.1]; omega)
    exact hl a0 _ (by show ((new.toNat : Nat) : Int) ≤ new; omega)

theorem lineDiscard_paints (hS : Sane E lit) {p : St × Result} (h : cmdUnixLineDiscard E s = .ok p)
    (hF : Fine E p.1) : Repaints E lit s p.1 := by
  unfold cmdUnixLineDiscard at h
  obtain ⟨t, h2, h⟩ := bind_ok.mp h
  obtain ⟨q, h3, h⟩ := bind_ok.mp h
  obtain ⟨s1, h4, h⟩ := bind_ok.mp h
  have hp : p.1 = s1 := by rw [← pure_ok.mp h]
  rw [hp] at hF ⊢
  obtain ⟨⟨b, u, e⟩, _⟩ := deleteCells_left h3
  refine start_paints (s1 := { q.1 with cursor := 0, viewStart := 0 }) hS (Silent.refl.of_out ?_) h4 hF (Int.le_refl _)
  show q.1.out = _
  rw [e]

theorem backwardWord_paints (hS : Sane E lit) {p : St × Result} (h : cmdBackwardWord E s = .ok p)
    (hV : InView E s) (hF : Fine E p.1) : Repaints E lit s p.1 := by
  unfold cmdBackwardWord at h
  obtain ⟨_, h0, h⟩ := bind_ok.mp h
  obtain ⟨c0, c1⟩ := checkCursor_ok h0
  obtain ⟨s1, h4, h⟩ := bind_ok.mp h
  have hp : p.1 = s1 := by rw [← pure_ok.mp h]
  rw [hp] at hF ⊢
  have hle : (skipWordLeft s.buf (skipSpacesLeft s.buf s.cursor.toNat) : Nat) ≤ s.cursor.toNat := by
    unfold St.len at c1
    have h1 : skipSpacesLeft s.buf s.cursor.toNat ≤ s.cursor.toNat := by
      rw [skipSpacesLeft_eq _ _ (by omega)]; exact skipSpaces_le _ _
    have h2 : skipWordLeft s.buf (skipSpacesLeft s.buf s.cursor.toNat) ≤ skipSpacesLeft s.buf s.cursor.toNat := by
      rw [skipWordLeft_eq _ _ (by omega)]; exact skipWord_le _ _
    omega
  generalize skipWordLeft s.buf (skipSpacesLeft s.buf s.cursor.toNat) = n at *
  by_cases hlt : (n : Int) < s.viewStart
  · rw [if_pos hlt] at h4
    exact start_paints (s1 := { s with viewStart := n, cursor := n }) hS (Silent.refl.of_out) h4 hF (Int.le_refl _)
  · rw [if_neg hlt] at h4
    exact left_paints (s1 := { s with cursor := n }) hS (Silent.refl.of_out) h4 hF hV
      (by show (n : Int) ≤ s.cursor; omega) (Int.le_refl _) rfl (Int.le_refl _)

theorem forwardWord_keeps (hS : Sane E lit) {p : St × Result} (h : cmdForwardWord E s = .ok p)
    (hT : Fine E s) (hF : Fine E p.1) : Keeps E lit s p.1 := by
  unfold cmdForwardWord at h
  obtain ⟨_, h0, h⟩ := bind_ok.mp h
  obtain ⟨w, h1, h⟩ := bind_ok.mp h
  obtain ⟨_, _, _, hw⟩ := widthBetween_columns h1
  split at h
  · rename_i hlt
    obtain ⟨s1, h2, h⟩ := bind_ok.mp h
    have hp : p.1 = { s1 with cursor := (forwardWordPos s.buf s.cursor.toNat : Nat) } := by rw [← pure_ok.mp h]
    rw [hp]
    exact advance hS hT.tabs h2 (by rw [← hw]; exact hlt)
  · obtain ⟨s1, h2, h⟩ := bind_ok.mp h
    have hp : p.1 = s1 := by rw [← pure_ok.mp h]
    rw [hp] at hF ⊢
    exact (reset_paints (s1 := { s with cursor := (forwardWordPos s.buf s.cursor.toNat : Nat) }) hS
      (Silent.refl.of_out) h2 hF).keeps

theorem forwardCharEnd_keeps (hS : Sane E lit) {p : St × Result} (h : cmdForwardChar E s = .ok p)
    (hc : s.cursor ≥ s.len) (hF : Fine E p.1) : Keeps E lit s p.1 := by
  unfold cmdForwardChar at h
  rw [if_pos hc] at h
  split at h
  · obtain ⟨s1, h1, h⟩ := bind_ok.mp h
    have hp : p.1 = s1 := by rw [← pure_ok.mp h]
    rw [hp] at hF ⊢
    exact (replace_paints hS Silent.refl h1 hF).keeps
  · cases h; exact Keeps.refl

theorem undo_keeps (hS : Sane E lit) {p : St × Result} (h : cmdUndo E s = .ok p) (hF : Fine E p.1) :
    Keeps E lit s p.1 := by
  unfold cmdUndo at h
  split at h
  · have hp : p.1 = s.emit (.lit [7]) := by rw [← pure_ok.mp h]
    rw [hp]
    exact Keeps.refl.emit _ hS.bell
  · rename_i u rest hu
    obtain ⟨b1, h1, h⟩ := bind_ok.mp h
    obtain ⟨s2, h2, h⟩ := bind_ok.mp h
    obtain ⟨s3, h3, h⟩ := bind_ok.mp h
    have hp : p.1 = s3 := by rw [← pure_ok.mp h]
    rw [hp] at hF ⊢
    refine (reset_paints (s1 := s2) hS ?_ h3 hF).keeps
    have hq : Silent E.cfg lit s (gotoHead { s with undoes := rest }) := by
      refine Silent.goto ?_
      exact Silent.refl.of_out
    refine hq.of_out ?_
    split at h2
    · obtain ⟨b2, h4, h2⟩ := bind_ok.mp h2
      have := pure_ok.mp h2
      rw [← this]
    · have := pure_ok.mp h2
      rw [← this]

theorem callPrompt_silent (hS : Sane E lit) (h : Silent E.cfg lit s s1) :
    Silent E.cfg lit s (callPromptWriter E s1).2 := by
  unfold callPromptWriter
  split
  · exact h.emit _ fun r => hS.high _ r
  · exact Silent.emit (s1 := { s1 with promptN := s1.promptN + 1 }) (h.of_out) _ fun r => hS.high _ r

theorem callPrompt_fields : (callPromptWriter E s).2.buf = s.buf ∧ (callPromptWriter E s).2.cursor = s.cursor ∧
    (callPromptWriter E s).2.viewStart = s.viewStart ∧ (callPromptWriter E s).2.termWidth = s.termWidth := by
  unfold callPromptWriter
  split
  · exact ⟨rfl, rfl, rfl, rfl⟩
  · exact ⟨rfl, rfl, rfl, rfl⟩

theorem repaintAll_paints (hS : Sane E lit) (hq : Silent E.cfg lit s s1) (hb : s1.buf = s.buf ∧ s1.cursor = s.cursor ∧
    s1.viewStart = s.viewStart ∧ s1.termWidth = s.termWidth)
    (h : repaintAll E s1 = .ok s') (hV : InView E s) (hF : Fine E s') (ht : s'.topColumn ≤ s.topColumn) :
    Repaints E lit s s' := by
  unfold repaintAll at h
  obtain ⟨f1, f2, f3, f4⟩ := callPrompt_fields (E := E) (s := s1.emit .flush)
  have hq' := callPrompt_silent hS (hq.emit .flush fun _ => rfl)
  obtain ⟨_, _, g3, g4, _⟩ := repaint_fields h
  generalize hst : ({ (callPromptWriter E (s1.emit .flush)).2 with
    topColumn := (callPromptWriter E (s1.emit .flush)).1 } : St) = st at h
  have h' : repaint E st = .ok s' := by rw [← hst]; exact h
  have t1 : st.buf = s.buf := by rw [← hst]; exact f1.trans hb.1
  have t2 : st.cursor = s.cursor := by rw [← hst]; exact f2.trans hb.2.1
  have t3 : st.viewStart = s.viewStart := by rw [← hst]; exact f3.trans hb.2.2.1
  have t4 : st.termWidth = s.termWidth := by rw [← hst]; exact f4.trans hb.2.2.2
  have t5 : st.topColumn = s'.topColumn := by
    rw [← hst]; exact g3.symm
  refine left_paints (s1 := st) hS (hq'.of_out (by rw [← hst])) h' hF hV (by rw [t2]; omega) (by rw [t3]; omega) ?_ ?_
  · unfold St.mojis; rw [t1]
  · unfold St.viewWidth; rw [t4, t5]; omega

theorem showHistory_keeps (hS : Sane E lit) {p : St × Result} (h : showHistory E s = .ok p)
    (h0 : 0 < s.viewWidth) (hF : Fine E p.1) : Keeps E lit s p.1 ∧ p.1.termWidth = s.termWidth := by
  unfold showHistory at h
  obtain ⟨q, h1, h⟩ := bind_ok.mp h
  obtain ⟨t, h2, h⟩ := bind_ok.mp h
  have hk := killWholeLine_paints hS h0 h1
  have hq : q.1.termWidth = s.termWidth := by
    unfold cmdKillWholeLine at h1
    rw [← pure_ok.mp h1]; rfl
  have hz : q.1.cursor = 0 ∧ q.1.viewStart = 0 ∧ q.1.buf = [] := by
    unfold cmdKillWholeLine at h1
    rw [← pure_ok.mp h1]; exact ⟨rfl, rfl, rfl⟩
  split at h
  · obtain ⟨q2, h3, h⟩ := bind_ok.mp h
    obtain ⟨q3, h4, h⟩ := bind_ok.mp h
    have hp : p.1 = q3.1 := by rw [← pure_ok.mp h]
    rw [hp] at hF ⊢
    obtain ⟨_, _, _, _, ⟨b, u, e⟩, _⟩ := insertString_ok h3
    generalize hst : ({ q2.1 with viewStart := 0, cursor := 0 } : St) = st at h4
    have t0 : st.viewStart = 0 := by rw [← hst]
    have t1 : st.cursor = 0 := by rw [← hst]
    have t2 : st.topColumn = q.1.topColumn := by rw [← hst]; show q2.1.topColumn = _; rw [e]
    have t3 : st.termWidth = q.1.termWidth := by rw [← hst]; show q2.1.termWidth = _; rw [e]
    have t4 : st.out = q.1.out := by rw [← hst]; show q2.1.out = _; rw [e]
    have hline : q3.1.line = st.line := by
      have := congrArg Ed.line (endOfLine_ed h4).1
      exact this
    have hT : ∀ p, Moji.tab p ∉ st.mojis := noTabs_same hline hF.tabs
    have hfin : q3.1.mojis = st.mojis ∧ q3.1.topColumn = st.topColumn ∧ q3.1.termWidth = st.termWidth := by
      unfold cmdEndOfLine at h4
      obtain ⟨w, g0, h4⟩ := bind_ok.mp h4
      split at h4
      · obtain ⟨s1, g1, h4⟩ := bind_ok.mp h4
        obtain ⟨⟨b, o, e⟩, hm, _⟩ := puts_row (lit := lit) (St.noTabs_aligned (E := E) hT) g1
        rw [← pure_ok.mp h4]
        refine ⟨hm, ?_, ?_⟩
        · show s1.topColumn = _; rw [e]
        · show s1.termWidth = _; rw [e]
      · obtain ⟨c, g1, h4⟩ := bind_ok.mp h4
        obtain ⟨s1, g2, h4⟩ := bind_ok.mp h4
        obtain ⟨⟨b, o, e⟩, hm, _⟩ := puts_row (lit := lit)
          (s := { gotoHead st with viewStart := (eolLoop E.cfg st.buf st.viewWidth (st.len - 1).toNat
            (c.moji.width E.cfg) : Nat) }) (St.noTabs_aligned (E := E) hT) g2
        rw [← pure_ok.mp h4]
        refine ⟨hm, ?_, ?_⟩
        · show s1.topColumn = _; rw [e]; rfl
        · show s1.termWidth = _; rw [e]; rfl
    have hN : ∀ m ∈ st.mojis, m.width E.cfg < st.viewWidth := by
      rw [← hfin.1, ← viewWidth_eq hfin.2.1 hfin.2.2]
      exact hF.narrow
    obtain ⟨f, hd, hr⟩ := endOfLine_draws hS hT hN h4
    refine ⟨?_, by rw [hfin.2.2, t3, hq]⟩
    obtain ⟨u1, e1, r1⟩ := hk
    obtain ⟨u2, e2, r2⟩ := hd
    refine ⟨u1 ++ u2, by rw [e2, t4, e1, List.append_assoc], fun r _ => ?_⟩
    rw [run_append, r2]
    have a := r1 r
    have hbe : q.1.between q.1.viewStart q.1.cursor = [] := between_empty _ (by rw [hz.1, hz.2.1]; omega)
    have hbe' : st.between st.viewStart st.cursor = [] := between_empty _ (by rw [t0, t1]; omega)
    have := hr (Row.run E.cfg lit r u1) ⟨by rw [t0]; omega, by rw [t0, t1]; omega, by
      rw [t1]; unfold St.len; omega, by
      rw [hbe', t2, a.1.col, hbe], by
      intro x hx hx2
      rw [hbe'] at hx2
      simp only [columns] at hx2
      omega⟩
    refine ⟨this.1, ?_⟩
    have h5 := this.2
    have h6 := a.2
    rw [hfin.2.2, t3] at h5 ⊢
    omega
  · have hp : p.1 = q.1 := by rw [← pure_ok.mp h]
    rw [hp]
    exact ⟨hk.keeps, hq⟩

end Readline
