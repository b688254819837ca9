import Verif.Proof.VisMove
/-!
# Swapping, killing and the history
-/
namespace Readline
open Spec

variable {C : Cfg} {E : Env} {lit : Bytes → Row → Row} {s s1 s' : St}

theorem puts_gotoHead {f : Row → Row} {ms : List Moji} {s0 : St}
    (hd : Draws C lit (gotoHead s0) s1 (fun r => r.puts C ms)) (h0 : s0.out = s.out) (h1 : s0.topColumn = s.topColumn) :
    Draws C lit s s1 (fun r => Row.puts C { r with col := s.topColumn } ms) := by
  have h2 : Draws C lit s (gotoHead s0) (fun r => r.receive C lit (.gotoCol (s0.topColumn + 1))) :=
    ((Draws.refl (s := s)).emit (.gotoCol (s0.topColumn + 1))).of_out (by
      show s0.out ++ _ = s.out ++ _
      rw [h0])
  refine (h2.trans hd).congr fun r => ?_
  show Row.puts C { r with col := s0.topColumn + 1 - 1 } ms = _
  rw [Int.add_sub_cancel, h1]

/-- `cmdSwapChar` when all units are equally wide. -/
theorem swapChar_keeps (hS : Sane E lit) (hF : Fine E s) (hW : SameWidths E s) {p : St × Result}
    (h : cmdSwapChar E s = .ok p) : Keeps E lit s p.1 := by
  obtain ⟨k, hk⟩ := hW
  unfold cmdSwapChar at h
  split at h
  · rename_i hend
    split at h
    · cases h; exact Keeps.refl
    · obtain ⟨two, h1, h⟩ := bind_ok.mp h
      obtain ⟨s1, h2, h⟩ := bind_ok.mp h
      have hp : p.1 = s1 := by rw [← pure_ok.mp h]
      rw [hp]
      generalize hsw : ({ s with undoes := _, buf := swapAt s.buf (s.cursor - 2).toNat } : St) = sw at h2
      have w1 : sw.mojis = swapAt s.mojis (s.cursor - 2).toNat := by
        rw [← hsw]; exact swapAt_map _ _ _
      have w2 : sw.viewStart = s.viewStart ∧ sw.cursor = s.cursor ∧ sw.topColumn = s.topColumn ∧
        sw.termWidth = s.termWidth ∧ sw.out = s.out := by rw [← hsw]; exact ⟨rfl, rfl, rfl, rfl, rfl⟩
      have w3 : sw.len = s.len := by rw [← mojis_length, ← mojis_length, w1, swapAt_length]
      have hmem : ∀ m ∈ sw.mojis, m ∈ s.mojis := by rw [w1]; intro m hm; exact swapAt_mem hm
      have hT : ∀ p, Moji.tab p ∉ (gotoHead sw).mojis := fun p hp => hF.tabs p (hmem _ hp)
      obtain ⟨⟨b, o, e⟩, hm, ⟨c0, c1, c2⟩, hd⟩ := puts_row (lit := lit) (St.noTabs_aligned (E := E) hT) h2
      have q1 : s1.viewStart = s.viewStart := by rw [e]; exact w2.1
      have q2 : s1.topColumn = s.topColumn := by rw [e]; exact w2.2.2.1
      have q4 : s1.termWidth = s.termWidth := by rw [e]; exact w2.2.2.2.1
      have q3 : s1.viewWidth = s.viewWidth := by unfold St.viewWidth; rw [q2, q4]
      have q5 : s1.cursor = s.cursor := by rw [e]; exact w2.2.1
      have q6 : s1.mojis = sw.mojis := hm
      have q7 : s1.len = s.len := by rw [← w3, ← mojis_length, ← mojis_length, q6]
      have hd' := puts_gotoHead (s := s) (f := id) (s0 := sw) hd w2.2.2.2.2 w2.2.2.1
      refine Draws.keeps hd' fun r hr => ?_
      have hbt : ∀ lo hi, s1.between lo hi = sw.between lo hi := fun lo hi => between_congr q6 lo hi
      have hms : (gotoHead sw).between (gotoHead sw).viewStart (gotoHead sw).cursor =
          sw.between s.viewStart s.cursor := by
        show sw.between sw.viewStart sw.cursor = _
        rw [w2.1, w2.2.1]
      rw [hms]
      have hcol : columns E.cfg (sw.between s.viewStart s.cursor) = columns E.cfg (s.between s.viewStart s.cursor) := by
        rw [columns_same hk _ (fun m hm => hmem m (between_mem hm)), columns_same hk _ (fun m hm => between_mem hm),
          between_length hr.low hr.mid (by rw [w3]; exact hr.high), between_length hr.low hr.mid hr.high]
      obtain ⟨right, pred, a1, a2, a3, a4, a5, a6⟩ := hr.cells
      have hright : right = [] := by
        rw [between_empty s (by omega)] at a1
        exact List.prefix_nil.mp a1
      subst hright
      rw [List.append_nil] at a2 a3
      have hin := hr.inView hS
      refine ⟨⟨?_, ?_, ?_, ?_, ?_⟩, ?_⟩
      · rw [q1]; exact hr.low
      · rw [q1, q5]; exact hr.mid
      · rw [q5, q7]; exact hr.high
      · rw [puts_col, q2, hbt, q1, q5]
      · have q8 : s1.suffixList = s.suffixList := by
          unfold St.suffixList; rw [e, ← hsw]; rfl
        refine ⟨[], pred, List.nil_prefix, ?_, ?_, a4.imp id
          (fun a => ⟨by rw [q5, q7]; exact hend.symm, by rw [q8]; exact a.2⟩), a5, ?_⟩
        · rw [List.append_nil, hbt, q1, q5, q3, columns_append, hcol, ← columns_append]
          exact a2
        · rw [List.append_nil, hbt, q1, q5, q2]
          exact printOver (C := E.cfg) hS.width (r := { r with col := s.topColumn }) (start := s.topColumn)
            (a := []) (c := sw.between s.viewStart s.cursor) (e := s.between s.viewStart s.cursor) (d := pred)
            (by simp [columns]) a3 hcol
        · intro _ m tail em
          rw [between_empty s1 (by omega)] at em
          cases em
      · apply puts_high (hS.wide _)
        · show r.high ≤ _; omega
        · show s.topColumn + _ ≤ _
          rw [hcol, q4, ← St.lim]
          have := hin.fits
          omega
  · rename_i hend
    split at h
    · cases h; exact Keeps.refl
    · rename_i hc1
      obtain ⟨two, h1, h⟩ := bind_ok.mp h
      obtain ⟨w, h0, h⟩ := bind_ok.mp h
      obtain ⟨s1, h2, h⟩ := bind_ok.mp h
      have hp : p.1 = s1 := by rw [← pure_ok.mp h]
      rw [hp]
      obtain ⟨b0, b1, b2, hw⟩ := widthBetween_columns h0
      replace hw : w = columns E.cfg (s.between s.viewStart (s.cursor + 1)) := hw
      replace b2 : s.cursor + 1 ≤ s.len := b2
      replace b1 : s.viewStart ≤ s.cursor + 1 := b1
      generalize hsw : ({ s with undoes := _, buf := swapAt s.buf (s.cursor - 1).toNat } : St) = sw at h2
      have w1 : sw.mojis = swapAt s.mojis (s.cursor - 1).toNat := by
        rw [← hsw]; exact swapAt_map _ _ _
      have w2 : sw.viewStart = s.viewStart ∧ sw.cursor = s.cursor ∧ sw.topColumn = s.topColumn ∧
        sw.termWidth = s.termWidth ∧ sw.out = s.out := by rw [← hsw]; exact ⟨rfl, rfl, rfl, rfl, rfl⟩
      have w3 : sw.len = s.len := by rw [← mojis_length, ← mojis_length, w1, swapAt_length]
      have w4 : sw.viewWidth = s.viewWidth := by rw [← hsw]; rfl
      have hmem : ∀ m ∈ sw.mojis, m ∈ s.mojis := by rw [w1]; intro m hm; exact swapAt_mem hm
      have htail : sw.between (s.cursor + 1) s.len = s.between (s.cursor + 1) s.len := by
        rw [between_end sw _ (by omega), between_end s _ (by omega), w1]
        apply swapAt_drop
        omega
      -- the state before printing
      generalize hst : ({ (if w ≥ (gotoHead sw).viewWidth then
          { gotoHead sw with viewStart := (gotoHead sw).viewStart + 1 } else gotoHead sw) with
          cursor := (if w ≥ (gotoHead sw).viewWidth then
          { gotoHead sw with viewStart := (gotoHead sw).viewStart + 1 } else gotoHead sw).cursor + 1 } : St) = st at h2
      have t1 : st.mojis = sw.mojis := by rw [← hst]; split <;> rfl
      have t2 : st.cursor = s.cursor + 1 := by
        rw [← hst]
        split
        · show sw.cursor + 1 = _; rw [w2.2.1]
        · show sw.cursor + 1 = _; rw [w2.2.1]
      have t3 : st.topColumn = s.topColumn := by rw [← hst]; split <;> exact w2.2.2.1
      have t4 : st.termWidth = s.termWidth := by rw [← hst]; split <;> exact w2.2.2.2.1
      have t5 : st.out = s.out ++ [.gotoCol (s.topColumn + 1)] := by
        rw [← hst]
        split
        · show sw.out ++ [.gotoCol (sw.topColumn + 1)] = _
          rw [w2.2.2.2.2, w2.2.2.1]
        · show sw.out ++ [.gotoCol (sw.topColumn + 1)] = _
          rw [w2.2.2.2.2, w2.2.2.1]
      have t6 : st.viewStart = if w ≥ s.viewWidth then s.viewStart + 1 else s.viewStart := by
        rw [← hst]
        have : (gotoHead sw).viewWidth = s.viewWidth := w4
        rw [this]
        split
        · show sw.viewStart + 1 = _; rw [w2.1]
        · show sw.viewStart = _; rw [w2.1]
      have t7 : st.len = s.len := by rw [← w3, ← mojis_length, ← mojis_length, t1]
      have hT : ∀ p, Moji.tab p ∉ st.mojis := fun p hp => hF.tabs p (hmem _ (by rw [← t1]; exact hp))
      obtain ⟨⟨b, o, e⟩, hm, ⟨c0, c1, c2⟩, hd⟩ := puts_row (lit := lit) (St.noTabs_aligned (E := E) hT) h2
      have q1 : s1.viewStart = st.viewStart := by rw [e]
      have q2 : s1.topColumn = s.topColumn := by rw [e]; exact t3
      have q4 : s1.termWidth = s.termWidth := by rw [e]; exact t4
      have q3 : s1.viewWidth = s.viewWidth := by unfold St.viewWidth; rw [q2, q4]
      have q5 : s1.cursor = s.cursor + 1 := by rw [e]; exact t2
      have q6 : s1.mojis = sw.mojis := hm.trans t1
      have q7 : s1.len = s.len := by rw [← w3, ← mojis_length, ← mojis_length, q6]
      have hbt : ∀ lo hi, s1.between lo hi = sw.between lo hi := fun lo hi => between_congr q6 lo hi
      have hd' : Draws E.cfg lit s s1 (fun r => Row.puts E.cfg { r with col := s.topColumn }
          (sw.between st.viewStart (s.cursor + 1))) := by
        have hd0 : Draws E.cfg lit s st (fun r => r.receive E.cfg lit (.gotoCol (s.topColumn + 1))) :=
          ((Draws.refl (s := s)).emit (.gotoCol (s.topColumn + 1))).of_out t5
        refine (hd0.trans hd).congr fun r => ?_
        rw [t2, between_congr t1]
        show Row.puts E.cfg { r with col := s.topColumn + 1 - 1 } _ = _
        rw [Int.add_sub_cancel]
      refine Draws.keeps hd' fun r hr => ?_
      obtain ⟨right, pred, a1, a2, a3, a4, a5, a6⟩ := hr.cells
      have hpred : pred = [] := by
        rcases a4 with a4 | a4
        · exact a4
        · omega
      subst hpred
      have hin := hr.inView hS
      have k0 : columns E.cfg (s.between s.viewStart s.cursor) = k * (s.cursor - s.viewStart) := by
        rw [columns_same hk _ (fun m hm => between_mem hm), between_length hr.low hr.mid hr.high]
      have k1 : columns E.cfg (s.between s.viewStart (s.cursor + 1)) = k * (s.cursor + 1 - s.viewStart) := by
        rw [columns_same hk _ (fun m hm => between_mem hm), between_length hr.low (by omega) (by omega)]
      have k2 : ∀ v, 0 ≤ v → v ≤ s.cursor + 1 →
          columns E.cfg (sw.between v (s.cursor + 1)) = k * (s.cursor + 1 - v) := by
        intro v hv0 hv
        rw [columns_same hk _ (fun m hm => hmem m (between_mem hm)), between_length hv0 hv (by omega)]
      have hkk : k * (s.cursor + 1 - s.viewStart) = k * (s.cursor - s.viewStart) + k := by
        rw [show s.cursor + 1 - s.viewStart = (s.cursor - s.viewStart) + 1 by omega, Int.mul_add, Int.mul_one]
      by_cases hsc : w ≥ s.viewWidth
      · -- the view is scrolled
        rw [if_pos hsc] at t6
        have hright : right = [] := by
          cases right with
          | nil => rfl
          | cons m right =>
            exfalso
            have hmk : m.width E.cfg = k := by
              apply hk
              obtain ⟨u, hu⟩ := a1
              apply between_mem (lo := s.cursor) (hi := s.len)
              rw [← hu]; simp
            rw [List.append_nil, columns_append, k0] at a2
            have : columns E.cfg (m :: right) = m.width E.cfg + columns E.cfg right := rfl
            have := (hS.wide right).columns
            omega
        subst hright
        simp only [List.append_nil] at a2 a3
        have k3 := k2 (s.viewStart + 1) (by have := hr.low; omega) (by have := hr.mid; omega)
        have hcol : columns E.cfg (sw.between st.viewStart (s.cursor + 1)) =
            columns E.cfg (s.between s.viewStart s.cursor) := by
          rw [t6, k3, k0, show s.cursor + 1 - (s.viewStart + 1) = s.cursor - s.viewStart by omega]
        refine ⟨Shows.of_left ?_ ?_ ?_ ?_ ?_ ?_ ?_, ?_⟩
        · rw [q1, t6]; have := hr.low; omega
        · rw [q1, t6, q5]; have := hr.mid; omega
        · rw [q5, q7]; omega
        · rw [hbt, q1, q5, q3, hcol]; exact hin.fits
        · rw [puts_col, hbt, q1, q5, q2]
        · rw [hbt, q1, q5, q2]
          have := printOver (C := E.cfg) hS.width (r := { r with col := s.topColumn }) (start := s.topColumn)
            (a := []) (c := sw.between st.viewStart (s.cursor + 1)) (e := s.between s.viewStart s.cursor) (d := [])
            (by simp [columns]) (by simpa using a3) hcol
          simpa using this
        · intro _ m tail em
          rw [hbt, q5, q7] at em
          have hmk : m.width E.cfg = k := by
            apply hk
            apply hmem
            apply between_mem (lo := s.cursor + 1) (hi := s.len)
            rw [em]; simp
          rw [hbt, q1, q5, q3, hcol, k0, hmk]
          omega
        · apply puts_high (hS.wide _)
          · show r.high ≤ _; omega
          · show s.topColumn + _ ≤ _
            rw [hcol, q4, ← St.lim]
            have := hin.fits
            omega
      · rw [if_neg hsc] at t6
        -- the unit behind the cursor is shown
        have hci : s.cursor.toNat < s.mojis.length := by have := mojis_length s; omega
        have hone := between_one (List.getElem?_eq_getElem hci)
        rw [Int.toNat_of_nonneg (by omega)] at hone
        generalize hc : s.mojis[s.cursor.toNat] = c at hone
        have hck : c.width E.cfg = k := by rw [← hc]; exact hk _ (List.getElem_mem hci)
        have hsp : s.between s.cursor s.len = c :: s.between (s.cursor + 1) s.len := by
          rw [between_split (mid := s.cursor + 1) (by omega) b2, hone]; rfl
        have hright : ∃ d, right = c :: d := by
          cases right with
          | nil =>
            exfalso
            have := a6 ⟨k, hk⟩ c _ hsp
            rw [List.append_nil, k0, hck] at this
            omega
          | cons m d =>
            rw [hsp] at a1
            obtain ⟨u, hu⟩ := a1
            injection hu with hu1 hu2
            exact ⟨d, by rw [hu1]⟩
        obtain ⟨d, hd2⟩ := hright
        subst hd2
        have hdp : d <+: s.between (s.cursor + 1) s.len := by
          rw [hsp] at a1
          obtain ⟨u, hu⟩ := a1
          injection hu with hu1 hu2
          exact ⟨u, hu2⟩
        have k3 := k2 s.viewStart hr.low (by have := hr.mid; omega)
        have hsp1 : s.between s.viewStart (s.cursor + 1) = s.between s.viewStart s.cursor ++ [c] := by
          rw [← hone]; exact between_split hr.mid (by omega)
        have hcol : columns E.cfg (sw.between s.viewStart (s.cursor + 1)) =
            columns E.cfg (s.between s.viewStart s.cursor ++ [c]) := by
          rw [k3, ← hsp1, k1]
        have e3 : s.between s.viewStart s.cursor ++ c :: d = s.between s.viewStart s.cursor ++ [c] ++ d := by simp
        rw [List.append_nil, e3] at a2 a3
        rw [t6]
        refine ⟨⟨?_, ?_, ?_, ?_, d, [], ?_, ?_, ?_, Or.inl rfl, fun _ => rfl, ?_⟩, ?_⟩
        · rw [q1, t6]; exact hr.low
        · rw [q1, t6, q5]; have := hr.mid; omega
        · rw [q5, q7]; omega
        · rw [puts_col, hbt, q1, q5, q2, t6]
        · rw [hbt, q5, q7, htail]; exact hdp
        · rw [List.append_nil, hbt, q1, q5, q3, t6, columns_append, hcol, ← columns_append]; exact a2
        · rw [List.append_nil, hbt, q1, q5, q2, t6]
          exact printOver (C := E.cfg) hS.width (r := { r with col := s.topColumn }) (start := s.topColumn)
            (a := []) (c := sw.between s.viewStart (s.cursor + 1)) (e := s.between s.viewStart s.cursor ++ [c]) (d := d)
            (by simp [columns]) (by simpa using a3) hcol
        · intro _ m tail em
          rw [hbt, q5, q7, htail] at em
          have := a6 ⟨k, hk⟩ m tail (by rw [hsp, em]; rfl)
          rw [hbt, q1, q5, q3, t6, columns_append, hcol, ← columns_append]
          rw [e3] at this
          exact this
        · apply puts_high (hS.wide _)
          · show r.high ≤ _; omega
          · show s.topColumn + _ ≤ _
            rw [k3, ← k1, ← hw, q4, ← St.lim]
            omega

/-- `cmdKillLine`. -/
theorem killLine_keeps (hS : Sane E lit) {p : St × Result} (h : cmdKillLine E s = .ok p) : Keeps E lit s p.1 := by
  unfold cmdKillLine at h
  obtain ⟨t, h1, h⟩ := bind_ok.mp h
  obtain ⟨tl, h2, h⟩ := bind_ok.mp h
  obtain ⟨hd, h3, h⟩ := bind_ok.mp h
  obtain ⟨c0, c1, c2, c3⟩ := slice_ok h3
  replace c1 : 0 ≤ s.cursor := c1
  replace c2 : s.cursor ≤ s.len := c2
  replace c3 : hd = (s.buf.take s.cursor.toNat).drop 0 := c3
  rw [List.drop_zero] at c3
  have hp : p.1.buf = hd ∧ p.1.viewStart = s.viewStart ∧ p.1.cursor = s.cursor ∧ p.1.topColumn = s.topColumn ∧
      p.1.termWidth = s.termWidth ∧ p.1.out = s.out ++ [.eraseEol] := by
    rw [← pure_ok.mp h]; exact ⟨rfl, rfl, rfl, rfl, rfl, rfl⟩
  obtain ⟨p1, p2, p3, p4, p5, p6⟩ := hp
  generalize p.1 = q at *
  have p7 : q.viewWidth = s.viewWidth := by unfold St.viewWidth; rw [p4, p5]
  have hm : q.mojis = s.mojis.take s.cursor.toNat := by
    unfold St.mojis; rw [p1, c3, List.map_take]
  have hlen : q.len = s.cursor := by
    rw [← mojis_length, hm, List.length_take]
    have := mojis_length s
    omega
  refine Draws.keeps (((Draws.refl (s := s)).emit .eraseEol).of_out (s2 := q) p6) fun r hr => ?_
  have hl : q.between q.viewStart q.cursor = s.between s.viewStart s.cursor := by
    unfold St.between
    rw [p2, p3, hm, List.take_take, Nat.min_self]
  have hre := hr.ready hS
  obtain ⟨h4, h5⟩ := printErase (lit := lit) hS.width (c := []) hre.col hre.cells
  refine ⟨Shows.of_left ?_ ?_ ?_ ?_ ?_ ?_ (full_at_end (by rw [p3, hlen])), ?_⟩
  · rw [p2]; exact hr.low
  · rw [p2, p3]; exact hr.mid
  · rw [p3, hlen]; omega
  · rw [hl, p7]; exact (hr.inView hS).fits
  · rw [hl, p4]; exact hr.col
  · rw [hl, p4]
    rw [List.append_nil] at h4
    exact h4
  · exact Int.le_max_left _ _

/-- `cmdKillWholeLine`. -/
theorem killWholeLine_paints (hS : Sane E lit) (hv : 0 < s.viewWidth) {p : St × Result}
    (h : cmdKillWholeLine s = .ok p) : Repaints E lit s p.1 := by
  unfold cmdKillWholeLine at h
  have hp : p.1.buf = [] ∧ p.1.viewStart = 0 ∧ p.1.cursor = 0 ∧ p.1.topColumn = s.topColumn ∧
      p.1.termWidth = s.termWidth ∧ p.1.out = s.out ++ [.gotoCol (s.topColumn + 1)] ++ [.eraseEol] := by
    rw [← pure_ok.mp h]; exact ⟨rfl, rfl, rfl, rfl, rfl, rfl⟩
  obtain ⟨p1, p2, p3, p4, p5, p6⟩ := hp
  generalize p.1 = q at *
  have p7 : q.viewWidth = s.viewWidth := by unfold St.viewWidth; rw [p4, p5]
  have hb : ∀ lo hi, q.between lo hi = [] := by intro lo hi; simp [St.between, St.mojis, p1]
  have hl : q.len = 0 := by unfold St.len; rw [p1]; rfl
  refine Draws.paints ((((Draws.refl (s := s)).emit (.gotoCol (s.topColumn + 1))).emit .eraseEol).of_out
    (s2 := q) p6) fun r => ⟨Shows.of_left ?_ ?_ ?_ ?_ ?_ ?_ ?_, Int.le_max_left _ _⟩
  · rw [p2]; omega
  · rw [p2, p3]; omega
  · rw [p3, hl]; omega
  · rw [hb, p7]; exact hv
  · rw [hb, p4]; show s.topColumn + 1 - 1 = s.topColumn + 0; omega
  · intro x hx
    rw [hb]
    show (if x ≥ s.topColumn + 1 - 1 then none else _) = none
    rw [if_pos (by rw [p4] at hx; omega)]
  · exact full_at_end (by rw [p3, hl])

end Readline
