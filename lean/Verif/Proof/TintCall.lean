import Verif.Proof.Tint
import Verif.Proof.InkCall
import Verif.Proof.Goto
/-!
# Every command leaves the colours right
-/
namespace Readline
open Spec

variable {E : Env} {lit : Bytes → Tint → Tint} {T0 : Tint} {s s1 s' : St}

/-- The row after all output of a state. -/
def tintOf (E : Env) (lit : Bytes → Tint → Tint) (T0 : Tint) (s : St) : Tint := T0.run E.cfg lit s.out

/-- What is assumed of the widths, the colouring, and the literal output that is not followed by a
repaint. -/
structure Spec.Vivid (E : Env) (lit : Bytes → Tint → Tint) : Prop where
  width : ∀ m : Moji, 0 ≤ m.width E.cfg
  colours : Colourful E.coloring
  blind : CursorBlind E.coloring
  color1 : ∀ t, (lit E.predictColor.1 t).row = t.row ∧ (lit E.predictColor.1 t).inks = t.inks
  color2 : ∀ t, (lit E.predictColor.2 t).row = t.row ∧ (lit E.predictColor.2 t).inks = t.inks
  bell : ∀ t, (lit [7] t).row = t.row ∧ (lit [7] t).inks = t.inks

theorem tintOf_append {t : List Tok} (e : s'.out = s.out ++ t) :
    tintOf E lit T0 s' = (tintOf E lit T0 s).run E.cfg lit t := by
  unfold tintOf
  rw [e, Tint.run_append]

theorem place_split {i j : Int} (h1 : s.viewStart ≤ i) (h2 : i ≤ j) :
    place E s j = place E s i + columns E.cfg (s.between i j) := by
  unfold place
  rw [between_split h1 h2, columns_append]; omega

theorem place_le (hV : Vivid E lit) {i j : Int} (h1 : s.viewStart ≤ i) (h2 : i ≤ j) : place E s i ≤ place E s j := by
  rw [place_split h1 h2]
  have := Wide0.columns (C := E.cfg) (ms := s.between i j) fun m _ => hV.width m
  omega

theorem place_succ {i : Nat} {m : Moji} (h1 : s.viewStart ≤ i) (hm : s.mojis[i]? = some m) :
    place E s (i + 1) = place E s i + m.width E.cfg := by
  rw [place_split h1 (by omega : (i : Int) ≤ i + 1), between_one hm]
  simp [columns]

theorem place_top : place E s s.viewStart = s.topColumn := by
  unfold place
  rw [between_empty _ (by omega)]
  simp [columns]

theorem place_eq (h1 : s'.mojis = s.mojis) (h2 : s'.viewStart = s.viewStart) (h3 : s'.topColumn = s.topColumn) (i : Int) :
    place E s' i = place E s i := by
  unfold place
  rw [between_congr h1, h2, h3]

theorem lt_len {i : Nat} {m : Moji} (hm : s.mojis[i]? = some m) : (i : Int) < s.len := by
  have h1 := (List.getElem?_eq_some_iff.mp hm).1
  have := mojis_length s
  omega

/-- Printing the units `lo..hi` in their place. -/
theorem puts_place (hV : Vivid E lit) {lo hi : Int} (h : puts E s lo hi = .ok s') (hlo : s.viewStart ≤ lo)
    (hcol : (tintOf E lit T0 s).row.col = place E s' lo) :
    (tintOf E lit T0 s').row.col = place E s' hi ∧
    (∀ (i : Nat) m x, lo ≤ i → i < hi → s'.mojis[i]? = some m → place E s' i ≤ x → x < place E s' i + m.width E.cfg →
      (tintOf E lit T0 s').inks x = some (colourOf E.cfg E.coloring s'.mojis i)) ∧
    ∀ x, (x < place E s' lo ∨ place E s' hi ≤ x) →
      (tintOf E lit T0 s').inks x = (tintOf E lit T0 s).inks x ∧
      (tintOf E lit T0 s').row.cells x = (tintOf E lit T0 s).row.cells x := by
  obtain ⟨⟨o, e⟩, _, _, hl, ⟨b1, b2, b3⟩, t, ho, ht⟩ := puts_tint hV.width hV.colours hV.blind (lit := lit) h
  obtain ⟨t1, t2, t3⟩ := ht (tintOf E lit T0 s)
  have hvs : s'.viewStart = s.viewStart := by rw [e]
  have hp : ∀ j : Int, lo ≤ j → place E s' j = place E s' lo + columns E.cfg (s'.between lo j) := fun j hj =>
    place_split (by rw [hvs]; exact hlo) hj
  rw [tintOf_append ho]
  refine ⟨?_, fun i m x h1 h2 hm hx1 hx2 => ?_, fun x hx => ?_⟩
  · rw [t1, puts_col, hcol, hp hi b2]
  · exact t2 i m x h1 h2 hm (by rw [hcol, ← hp i h1]; exact hx1) (by rw [hcol, ← hp i h1]; exact hx2)
  · refine ⟨t3 x (by rw [hcol, ← hp hi b2]; exact hx), ?_⟩
    rw [t1, puts_cells fun m _ => hV.width m, if_neg]
    rw [hcol, ← hp hi b2]
    omega

theorem tint_goto (s : St) : (tintOf E lit T0 (gotoHead s)).row.col = s.topColumn ∧
    (tintOf E lit T0 (gotoHead s)).row.cells = (tintOf E lit T0 s).row.cells ∧
    (tintOf E lit T0 (gotoHead s)).inks = (tintOf E lit T0 s).inks := by
  rw [tintOf_append (s := s) (t := [.gotoCol (s.topColumn + 1)]) rfl]
  refine ⟨?_, rfl, rfl⟩
  show s.topColumn + 1 - 1 = s.topColumn
  omega

theorem tint_erase (s : St) : (tintOf E lit T0 (eraseline s)).row.col = (tintOf E lit T0 s).row.col ∧
    (∀ x, (tintOf E lit T0 s).row.col ≤ x → (tintOf E lit T0 (eraseline s)).row.cells x = none) ∧
    (∀ x, x < (tintOf E lit T0 s).row.col →
      (tintOf E lit T0 (eraseline s)).row.cells x = (tintOf E lit T0 s).row.cells x) ∧
    (tintOf E lit T0 (eraseline s)).inks = (tintOf E lit T0 s).inks := by
  rw [tintOf_append (s := s) (t := [.eraseEol]) rfl]
  refine ⟨rfl, fun x hx => ?_, fun x hx => ?_, rfl⟩
  · exact if_pos hx
  · exact if_neg (by omega)

/-- Printing some units in the colour in force. -/
theorem tint_glyphs (hC : ∀ m : Moji, 0 ≤ m.width E.cfg) (l : List Moji) (T : Tint) :
    (T.run E.cfg lit (l.map Tok.glyph)).row = T.row.puts E.cfg l ∧
    ∀ x, x < T.row.col → (T.run E.cfg lit (l.map Tok.glyph)).inks x = T.inks x := by
  have e : ∀ c : Option Color, (inked c (l.map Tok.glyph)).map Prod.fst = l := by
    intro c
    induction l with
    | nil => rfl
    | cons m l ih => exact congrArg (m :: ·) ih
  obtain ⟨h1, _, h3⟩ := run_inked (C := E.cfg) (lit := lit) (ts := l.map Tok.glyph) (fun t ht => by
    obtain ⟨m, _, rfl⟩ := List.mem_map.mp ht; exact Or.inl ⟨m, rfl⟩) T
  refine ⟨by rw [h1, e], fun x hx => ?_⟩
  rw [h3]
  exact inkLay_outside hC _ _ _ (Or.inl hx)

/-! ## The predicate -/

/-- The colours on the row are right. -/
structure Right (E : Env) (lit : Bytes → Tint → Tint) (T0 : Tint) (s : St) : Prop extends
    Tinted E s (tintOf E lit T0 s) where
  mid : s.viewStart ≤ s.cursor

namespace Right

theorem of (h : Right E lit T0 s) (h1 : s'.mojis = s.mojis := by rfl) (h2 : s'.viewStart = s.viewStart := by rfl)
    (h3 : s'.topColumn = s.topColumn := by rfl) (h4 : s'.cursor = s.cursor := by rfl)
    (h5 : s'.out = s.out := by rfl) : Right E lit T0 s' := by
  have ht : tintOf E lit T0 s' = tintOf E lit T0 s := by unfold tintOf; rw [h5]
  have hp := place_eq (E := E) h1 h2 h3
  refine ⟨⟨by rw [ht, hp, h4]; exact h.col, fun i m x => ?_⟩, by rw [h2, h4]; exact h.mid⟩
  rw [ht, hp, h1, h2]
  exact h.inks i m x

theorem emit (h : Right E lit T0 s) {t : Tok} (ht : ∀ T : Tint, (T.receive E.cfg lit t).row = T.row ∧
    (T.receive E.cfg lit t).inks = T.inks := by exact fun _ => ⟨rfl, rfl⟩) : Right E lit T0 (s.emit t) := by
  have e := tintOf_append (E := E) (lit := lit) (T0 := T0) (s := s) (s' := s.emit t) (t := [t]) rfl
  obtain ⟨h1, h2⟩ := ht (tintOf E lit T0 s)
  have h1' : (tintOf E lit T0 (s.emit t)).row = (tintOf E lit T0 s).row := by rw [e]; exact h1
  have h2' : (tintOf E lit T0 (s.emit t)).inks = (tintOf E lit T0 s).inks := by rw [e]; exact h2
  refine ⟨⟨by rw [h1']; exact h.col, fun i m x => ?_⟩, h.mid⟩
  rw [h1', h2']
  exact h.inks i m x

end Right

/-- If the units left of the cursor have just been printed in their place, the units from the cursor
on need to be looked at only. -/
theorem right_of_left (hV : Vivid E lit) {lo : Int} (h : puts E s lo s.cursor = .ok s') (hlo : s.viewStart ≤ lo)
    (hcol : (tintOf E lit T0 s).row.col = place E s' lo)
    (hleft : ∀ (i : Nat) m x, s.viewStart ≤ i → i < lo → s'.mojis[i]? = some m → place E s' i ≤ x →
      x < place E s' i + m.width E.cfg → (tintOf E lit T0 s).row.cells x ≠ none →
      (tintOf E lit T0 s).inks x = some (colourOf E.cfg E.coloring s'.mojis i))
    (hright : ∀ (i : Nat) m x, s.cursor ≤ i → s'.mojis[i]? = some m → place E s' i ≤ x →
      x < place E s' i + m.width E.cfg → (tintOf E lit T0 s).row.cells x ≠ none →
      (tintOf E lit T0 s).inks x = some (colourOf E.cfg E.coloring s'.mojis i)) : Right E lit T0 s' := by
  obtain ⟨p1, p2, p3⟩ := puts_place hV h hlo hcol
  obtain ⟨⟨o, e⟩, _, _, _, ⟨b1, b2, b3⟩, _⟩ := puts_tint hV.width hV.colours hV.blind (lit := lit) h
  have hc : s'.cursor = s.cursor := by rw [e]
  have hvs : s'.viewStart = s.viewStart := by rw [e]
  refine ⟨⟨by rw [hc]; exact p1, fun i m x h1 hm hx1 hx2 hne => ?_⟩, by rw [hc, hvs]; omega⟩
  rw [hvs] at h1
  by_cases hi : (i : Int) < lo
  · have hx : x < place E s' lo := by
      have : place E s' (i + 1) ≤ place E s' lo := place_le hV (by omega) (by omega)
      rw [place_succ (by omega) hm] at this
      omega
    obtain ⟨q1, q2⟩ := p3 x (Or.inl hx)
    rw [q1]
    exact hleft i m x h1 hi hm hx1 hx2 (by rw [← q2]; exact hne)
  · by_cases hi2 : (i : Int) < s.cursor
    · exact p2 i m x (by omega) hi2 hm hx1 hx2
    · have hx : place E s' s.cursor ≤ x := by
        have : place E s' s.cursor ≤ place E s' i := place_le hV (by omega) (by omega)
        omega
      obtain ⟨q1, q2⟩ := p3 x (Or.inr hx)
      rw [q1]
      exact hright i m x (by omega) hm hx1 hx2 (by rw [← q2]; exact hne)

/-- A repaint makes the colours right, whatever was there before. -/
theorem repaintNoSuffix_right (hV : Vivid E lit) (h : repaintNoSuffix E s = .ok s') : Right E lit T0 s' := by
  unfold repaintNoSuffix at h
  obtain ⟨⟨n, w⟩, _, h⟩ := bind_ok.mp h
  obtain ⟨s1, h1, h⟩ := bind_ok.mp h
  obtain ⟨s2, h2, h⟩ := bind_ok.mp h
  obtain ⟨⟨o1, e1⟩, ha1, _, hl1, ⟨b1, b2, b3⟩, _⟩ := puts_tint hV.width hV.colours hV.blind (lit := lit) h1
  have htop : s1.topColumn = s.topColumn := by rw [e1]; rfl
  have hvs1 : s1.viewStart = s.viewStart := by rw [e1]; rfl
  have hcur1 : s1.cursor = s.cursor := by rw [e1]; rfl
  have hv : (gotoHead s).viewStart = s.viewStart := rfl
  obtain ⟨p1, p2, p3⟩ := puts_place (T0 := T0) hV h1 (Int.le_refl _) (by
    rw [(tint_goto s).1, ← htop, ← place_top (E := E) (s := s1), hvs1]; rfl)
  rw [hv] at *
  -- the prediction
  have hs2 : ∃ l : List Moji, ∃ o, s2 = { s1 with out := o } ∧ (l ≠ [] → s1.cursor = s1.len) ∧
      (tintOf E lit T0 s2).row = (tintOf E lit T0 s1).row.puts E.cfg l ∧
      ∀ x, x < (tintOf E lit T0 s1).row.col → (tintOf E lit T0 s2).inks x = (tintOf E lit T0 s1).inks x := by
    split at h2
    · obtain ⟨s3, h3, h2⟩ := bind_ok.mp h2
      obtain ⟨l, el⟩ := suffixLoop_glyphs _ _ h3
      cases pure_ok.mp h2
      refine ⟨l, s1.out ++ [.lit E.predictColor.1] ++ l.map Tok.glyph ++ [.lit E.predictColor.2], ?_, ?_, ?_⟩
      · rw [el]; simp [St.emit]
      · intro hl
        apply Classical.byContradiction
        intro hne
        apply hl
        have hvis : St.visibleSuffix E (s1.emit (.lit E.predictColor.1)) = [] := by
          unfold St.visibleSuffix
          split
          · rfl
          · exact if_pos hne
        rw [hvis, suffixLoop] at h3
        have h4 : s1.emit (.lit E.predictColor.1) = s3 := by injection h3
        rw [el] at h4
        have h5 := congrArg (fun q : St => q.out.length) h4
        simp [St.emit] at h5
        exact h5
      · have e2 : (s3.emit (.lit E.predictColor.2)).out = s1.out ++
            ([.lit E.predictColor.1] ++ l.map Tok.glyph ++ [.lit E.predictColor.2]) := by rw [el]; simp [St.emit]
        rw [tintOf_append e2, Tint.run_append, Tint.run_append]
        obtain ⟨c1, c2⟩ := hV.color1 (tintOf E lit T0 s1)
        obtain ⟨g1, g2⟩ := tint_glyphs (lit := lit) hV.width l ((tintOf E lit T0 s1).run E.cfg lit [.lit E.predictColor.1])
        have c1' : ((tintOf E lit T0 s1).run E.cfg lit [.lit E.predictColor.1]).row = (tintOf E lit T0 s1).row := c1
        have c2' : ((tintOf E lit T0 s1).run E.cfg lit [.lit E.predictColor.1]).inks = (tintOf E lit T0 s1).inks := c2
        generalize (tintOf E lit T0 s1).run E.cfg lit [.lit E.predictColor.1] = T1 at *
        obtain ⟨d1, d2⟩ := hV.color2 (T1.run E.cfg lit (l.map Tok.glyph))
        refine ⟨?_, fun x hx => ?_⟩
        · show (lit E.predictColor.2 _).row = _
          rw [d1, g1, c1']
        · show (lit E.predictColor.2 _).inks x = _
          rw [d2, g2 x (by rw [c1']; exact hx), c2']
    · cases pure_ok.mp h2
      exact ⟨[], s1.out, by simp, fun h => absurd rfl h, rfl, fun _ _ => rfl⟩
  obtain ⟨l, o2, e2, hl, r2, i2⟩ := hs2
  have hbuf2 : (gotoHead (eraseline s2)).mojis = s1.mojis := by rw [e2]; rfl
  have hal : (gotoHead (eraseline s2)).aligned E := by rw [e2]; exact ha1
  obtain ⟨⟨o3, e3⟩, _, hm3, _, ⟨b4, b5, b6⟩, _⟩ := puts_tint hV.width hV.colours hV.blind (lit := lit) h
  have hm : s'.mojis = s1.mojis := (hm3 hal).trans hbuf2
  have hvs' : s'.viewStart = s1.viewStart := by rw [e3, e2]; rfl
  have htop' : s'.topColumn = s1.topColumn := by rw [e3, e2]; rfl
  have hpl := place_eq (E := E) hm hvs' htop'
  have hvs3 : (gotoHead (eraseline s2)).viewStart = s.viewStart := by rw [e2, ← hvs1]; rfl
  have hcur3 : (gotoHead (eraseline s2)).cursor = s.cursor := by rw [e2, ← hcur1]; rfl
  refine right_of_left (T0 := T0) hV h (Int.le_refl _) ?_ ?_ ?_
  · rw [(tint_goto _).1, hvs3, hpl, ← hvs1, place_top]
    rw [e2]; rfl
  · intro i m x h1 h2; omega
  · intro i m x h1 hm' hx1 hx2 hne
    rw [hcur3] at h1
    rw [hm] at hm' ⊢
    rw [hpl] at hx1 hx2
    obtain ⟨_, g2, g3⟩ := tint_goto (E := E) (lit := lit) (T0 := T0) (eraseline s2)
    obtain ⟨f1, f2, f3, f4⟩ := tint_erase (E := E) (lit := lit) (T0 := T0) s2
    rw [hvs3, hcur3] at b5
    rw [g2] at hne
    rw [g3, f4]
    have hwl := Wide0.columns (C := E.cfg) (ms := l) fun m _ => hV.width m
    have hcol2 : (tintOf E lit T0 s2).row.col = place E s1 (s.viewStart + n) + columns E.cfg l := by
      rw [r2, puts_col, p1]
    by_cases hi : (i : Int) < s.viewStart + n
    · have hx : x < place E s1 (s.viewStart + n) := by
        have : place E s1 (i + 1) ≤ place E s1 (s.viewStart + n) := place_le hV (by omega) (by omega)
        rw [place_succ (by omega) hm'] at this
        omega
      have hcol1 : (tintOf E lit T0 s1).row.col = place E s1 (s.viewStart + n) := p1
      rw [i2 x (by rw [hcol1]; exact hx)]
      exact p2 i m x (by omega) hi hm' hx1 hx2
    · exfalso
      apply hne
      apply f2
      have hnil : l = [] := by
        apply Classical.byContradiction
        intro hne
        have := hl hne
        have := lt_len hm'
        omega
      rw [hcol2, hnil]
      have : place E s1 (s.viewStart + n) ≤ place E s1 i := place_le hV (by omega) (by omega)
      simp only [columns]
      omega

theorem repaint_right {s : St} (hV : Vivid E lit) : Wp Any (repaint E s) (Right E lit T0) :=
  Wp.of_ok fun _ h => repaintNoSuffix_right hV h

/-! ## Commands -/

theorem Wp.contRight {x : M St} (h : Wp Any x (Right E lit T0)) :
    Wp Any (x >>= fun s => Pure.pure (s, Result.cont)) (fun p => Right E lit T0 p.1) :=
  Wp.seq h fun _ h1 => h1

theorem replaceAndRepaint_right (hV : Vivid E lit) (s : St) (pos : Int) (t : Bytes) :
    Wp Any (replaceAndRepaint E s pos t) (Right E lit T0) := by
  unfold replaceAndRepaint
  refine Wp.seq Wp.any fun p _ => ?_
  refine Wp.seq Wp.any fun p _ => ?_
  exact repaint_right hV

theorem repaintAll_right (hV : Vivid E lit) (s : St) : Wp Any (repaintAll E s) (Right E lit T0) :=
  repaint_right hV

theorem repaintLastLine_right (hV : Vivid E lit) (s : St) : Wp Any (repaintLastLine E s) (Right E lit T0) := by
  unfold repaintLastLine
  dsimp only
  split <;> exact repaint_right hV

/-- Going right by printing what is passed over. -/
theorem advance_right (hV : Vivid E lit) {p : Int} (h : puts E s s.cursor p = .ok s')
    (hr : Right E lit T0 { s with buf := refreshed E s }) : Right E lit T0 { s' with cursor := p } := by
  obtain ⟨⟨o, e⟩, _, _, hl, ⟨b1, b2, b3⟩, _⟩ := puts_tint hV.width hV.colours hV.blind (lit := lit) h
  have hmid : s.viewStart ≤ s.cursor := hr.mid
  have hpl : ∀ i, place E s' i = place E { s with buf := refreshed E s } i := fun i =>
    place_eq (by rw [e]; rfl) (by rw [e]) (by rw [e]) i
  have hm : s'.mojis = St.mojis { s with buf := refreshed E s } := by rw [e]; rfl
  have hvs : s'.viewStart = s.viewStart := by rw [e]
  obtain ⟨p1, p2, p3⟩ := puts_place (T0 := T0) hV h hmid (by rw [hpl]; exact hr.col)
  refine ⟨⟨p1, fun i m x h1 hm' hx1 hx2 hne => ?_⟩, by show s'.viewStart ≤ p; omega⟩
  replace h1 : s.viewStart ≤ i := by rw [← hvs]; exact h1
  replace hm' : s'.mojis[i]? = some m := hm'
  replace hx1 : place E s' i ≤ x := hx1
  replace hx2 : x < place E s' i + m.width E.cfg := hx2
  by_cases hi : s.cursor ≤ i ∧ (i : Int) < p
  · exact p2 i m x hi.1 hi.2 hm' hx1 hx2
  · obtain ⟨q1, q2⟩ := p3 x (by
      by_cases hc : (i : Int) < s.cursor
      · have : place E s' (i + 1) ≤ place E s' s.cursor := place_le hV (by omega) (by omega)
        rw [place_succ (by omega) hm'] at this
        omega
      · have : place E s' p ≤ place E s' i := place_le hV (by omega) (by omega)
        omega)
    show (tintOf E lit T0 s').inks x = _
    rw [q1]
    show _ = some (colourOf E.cfg E.coloring s'.mojis i)
    rw [hm]
    exact hr.inks i m x h1 (by rw [← hm]; exact hm') (by rw [← hpl]; exact hx1) (by rw [← hpl]; exact hx2)
      (by
        have : (tintOf E lit T0 s').row.cells x ≠ none := hne
        rw [q2] at this
        exact this)

theorem Right.refreshed (h : Right E lit T0 s) (ha : s.aligned E) :
    Right E lit T0 { s with buf := Readline.refreshed E s } := h.of (h1 := refreshed_id ha)

/-- Erasing what is behind the cursor leaves the colours right. -/
theorem Right.erase (hV : Vivid E lit) (h : Right E lit T0 s) : Right E lit T0 (eraseline s) := by
  obtain ⟨f1, f2, f3, f4⟩ := tint_erase (E := E) (lit := lit) (T0 := T0) s
  refine ⟨⟨by rw [f1]; exact h.col, fun i m x h1 hm hx1 hx2 hne => ?_⟩, h.mid⟩
  rw [f4]
  refine h.inks i m x h1 hm hx1 hx2 fun hn => ?_
  apply hne
  by_cases hx : (tintOf E lit T0 s).row.col ≤ x
  · exact f2 x hx
  · rw [f3 x (by omega)]; exact hn

/-- Printing from the first column on, and erasing the rest. -/
theorem fresh_right (hV : Vivid E lit) {p : Int} (h : puts E s s.viewStart p = .ok s')
    (hcol : (tintOf E lit T0 s).row.col = s.topColumn) :
    Right E lit T0 (eraseline { s' with cursor := p }) := by
  obtain ⟨⟨o, e⟩, _, _, hl, ⟨b1, b2, b3⟩, _⟩ := puts_tint hV.width hV.colours hV.blind (lit := lit) h
  have hvs : s'.viewStart = s.viewStart := by rw [e]
  have htop : s'.topColumn = s.topColumn := by rw [e]
  obtain ⟨p1, p2, p3⟩ := puts_place (T0 := T0) hV h (Int.le_refl _) (by
    rw [hcol, ← htop, ← place_top (E := E) (s := s'), hvs])
  obtain ⟨f1, f2, f3, f4⟩ := tint_erase (E := E) (lit := lit) (T0 := T0) { s' with cursor := p }
  refine ⟨⟨by rw [f1]; exact p1, fun i m x h1 hm' hx1 hx2 hne => ?_⟩, by show s'.viewStart ≤ p; omega⟩
  replace h1 : s.viewStart ≤ i := by rw [← hvs]; exact h1
  replace hm' : s'.mojis[i]? = some m := hm'
  replace hx1 : place E s' i ≤ x := hx1
  replace hx2 : x < place E s' i + m.width E.cfg := hx2
  rw [f4]
  by_cases hi : (i : Int) < p
  · exact p2 i m x h1 hi hm' hx1 hx2
  · exfalso
    apply hne
    apply f2
    have : place E s' p ≤ place E s' i := place_le hV (by omega) (by omega)
    have p1' : (tintOf E lit T0 { s' with cursor := p }).row.col = place E s' p := p1
    omega

theorem cmdEndOfLine_right (hV : Vivid E lit) (hr : Right E lit T0 { s with buf := refreshed E s }) :
    Wp Any (cmdEndOfLine E s) (fun p => Right E lit T0 p.1) := by
  unfold cmdEndOfLine
  refine Wp.seq Wp.any fun _ _ => ?_
  split
  · refine Wp.of_ok fun p hp => ?_
    obtain ⟨s1, h1, hp⟩ := bind_ok.mp hp
    have hl : s1.len = s.len := (puts_tint hV.width hV.colours hV.blind (lit := lit) h1).2.2.2.1
    have := (advance_right hV h1 hr).erase hV
    rw [← pure_ok.mp hp]
    rw [← hl] at this
    exact this
  · refine Wp.seq Wp.any fun last _ => ?_
    refine Wp.of_ok fun p hp => ?_
    obtain ⟨s1, h1, hp⟩ := bind_ok.mp hp
    rw [← pure_ok.mp hp]
    have hl := (puts_tint hV.width hV.colours hV.blind (lit := lit) h1).2.2.2.1
    have := fresh_right (T0 := T0) hV h1 (tint_goto s).1
    rw [← hl] at this
    exact this

theorem cmdForwardChar_right (hV : Vivid E lit) (ha : s.aligned E) (hr : Right E lit T0 s) :
    Wp Any (cmdForwardChar E s) (fun p => Right E lit T0 p.1) := by
  unfold cmdForwardChar
  split
  · split
    · exact Wp.contRight (replaceAndRepaint_right hV _ _ _)
    · exact hr
  · refine Wp.seq Wp.any fun _ _ => ?_
    split
    · refine Wp.of_ok fun p hp => ?_
      obtain ⟨s1, h1, hp⟩ := bind_ok.mp hp
      have hc : s1.cursor = s.cursor := by
        obtain ⟨⟨o, e⟩, _⟩ := puts_tint hV.width hV.colours hV.blind (lit := lit) h1
        rw [e]
      have := advance_right hV h1 (hr.refreshed ha)
      rw [← pure_ok.mp hp]
      rw [← hc] at this
      exact this
    · refine Wp.seq Wp.any fun c _ => ?_
      refine Wp.seq Wp.any fun v _ => ?_
      refine Wp.of_ok fun p hp => ?_
      obtain ⟨s1, h1, hp⟩ := bind_ok.mp hp
      have hc : s1.cursor = s.cursor := by
        obtain ⟨⟨o, e⟩, _⟩ := puts_tint hV.width hV.colours hV.blind (lit := lit) h1
        rw [e]; rfl
      have := fresh_right (T0 := T0) hV h1 (tint_goto s).1
      rw [← pure_ok.mp hp]
      have e2 : (gotoHead s).cursor = s1.cursor := hc.symm
      rw [show ({ gotoHead s with viewStart := _ } : St).cursor + 1 = s1.cursor + 1 from by rw [hc]; rfl] at this
      exact this

theorem cmdBackwardDeleteChar_right (hV : Vivid E lit) (hr : Right E lit T0 s) :
    Wp Any (cmdBackwardDeleteChar E s) (fun p => Right E lit T0 p.1) := by
  unfold cmdBackwardDeleteChar
  split
  · refine Wp.seq Wp.any fun p _ => ?_
    exact Wp.contRight (repaint_right hV)
  · exact hr

theorem cmdDeleteChar_right (hV : Vivid E lit) (s : St) :
    Wp Any (cmdDeleteChar E s) (fun p => Right E lit T0 p.1) := by
  unfold cmdDeleteChar
  refine Wp.seq Wp.any fun p _ => ?_
  exact Wp.contRight (repaint_right hV)

theorem selfInsertTail_right (hV : Vivid E lit) (s : St) (k : Bytes) :
    Wp Any (selfInsertTail E s k) (fun p => Right E lit T0 p.1) := by
  unfold selfInsertTail
  refine Wp.seq Wp.any fun p _ => ?_
  dsimp only
  refine Wp.seq Wp.any fun _ _ => ?_
  exact Wp.contRight (repaint_right hV)

theorem cmdSelfInsert_right (hV : Vivid E lit) (hr : Right E lit T0 s) (k : Bytes) :
    Wp Any (cmdSelfInsert E k s) (fun p => Right E lit T0 p.1) := by
  unfold cmdSelfInsert
  dsimp only
  split
  · refine Wp.seq Wp.any fun c _ => ?_
    exact cmdBackwardDeleteChar_right hV (hr.of)
  · split
    · refine Wp.seq Wp.any fun c _ => ?_
      refine Wp.seq Wp.any fun p _ => ?_
      exact selfInsertTail_right hV _ _
    · split
      · exact selfInsertTail_right hV _ _
      · exact selfInsertTail_right hV _ _

theorem cmdKillLine_right (hV : Vivid E lit) (hr : Right E lit T0 s) :
    Wp Any (cmdKillLine E s) (fun p => Right E lit T0 p.1) := by
  refine Wp.of_ok fun p h => ?_
  unfold cmdKillLine at h
  obtain ⟨t, h1, h⟩ := bind_ok.mp h
  obtain ⟨tl, h2, h⟩ := bind_ok.mp h
  obtain ⟨hd, h3, h⟩ := bind_ok.mp h
  obtain ⟨c0, c1, c2, c3⟩ := slice_ok h3
  replace c1 : 0 ≤ s.cursor := c1
  replace c2 : s.cursor ≤ s.len := c2
  replace c3 : hd = (s.buf.take s.cursor.toNat).drop 0 := c3
  rw [List.drop_zero] at c3
  have hq := hr.erase hV
  have hp : p.1.buf = hd ∧ p.1.viewStart = s.viewStart ∧ p.1.cursor = s.cursor ∧ p.1.topColumn = s.topColumn ∧
      p.1.out = (eraseline s).out := by
    rw [← pure_ok.mp h]; exact ⟨rfl, rfl, rfl, rfl, rfl⟩
  obtain ⟨p1, p2, p3, p4, p5⟩ := hp
  generalize p.1 = q at *
  have hm : q.mojis = s.mojis.take s.cursor.toNat := by
    unfold St.mojis; rw [p1, c3, List.map_take]
  have hpl : ∀ i : Int, i ≤ s.cursor → place E q i = place E s i := by
    intro i hi
    unfold place St.between
    rw [hm, p2, p4, List.take_take, Nat.min_eq_left (by omega)]
  have ht : tintOf E lit T0 q = tintOf E lit T0 (eraseline s) := by unfold tintOf; rw [p5]
  refine ⟨⟨by rw [ht, p3, hpl _ (Int.le_refl _)]; exact hq.col, fun i m x h1 hm' hx1 hx2 hne => ?_⟩,
    by rw [p2, p3]; exact hr.mid⟩
  rw [p2] at h1
  rw [ht] at hne ⊢
  have hi : i < s.cursor.toNat := by
    rw [hm] at hm'
    have := (List.getElem?_eq_some_iff.mp hm').1
    rw [List.length_take] at this
    omega
  have hm2 : s.mojis[i]? = some m := by
    rw [hm, List.getElem?_take_of_lt hi] at hm'
    exact hm'
  rw [hpl _ (by omega)] at hx1 hx2
  have := hq.inks i m x h1 hm2 hx1 hx2 hne
  rw [this]
  congr 1
  apply colourOf_take
  show s.mojis.take (i + 1) = _
  rw [hm, List.take_take, Nat.min_eq_left (by omega)]

/-- The row behind the prompt is empty. -/
def Swept (E : Env) (lit : Bytes → Tint → Tint) (T0 : Tint) (s : St) : Prop :=
  (tintOf E lit T0 s).row.col = s.topColumn ∧ s.cursor = s.viewStart ∧
    ∀ x, s.topColumn ≤ x → (tintOf E lit T0 s).row.cells x = none

theorem Swept.right (hV : Vivid E lit) (h : Swept E lit T0 s) : Right E lit T0 s := by
  obtain ⟨h1, h2, h3⟩ := h
  refine ⟨⟨by rw [h1, h2, place_top], fun i m x hi hm hx1 _ hne => ?_⟩, by omega⟩
  exfalso
  apply hne
  apply h3
  have : place E s s.viewStart ≤ place E s i := place_le hV (Int.le_refl _) hi
  rw [place_top] at this
  omega

theorem cmdKillWholeLine_swept (s : St) : Wp Any (cmdKillWholeLine s)
    (fun p => Swept E lit T0 p.1 ∧ p.1.viewStart = 0 ∧ p.1.cursor = 0) := by
  unfold cmdKillWholeLine
  dsimp only
  refine Wp.pure ⟨?_, rfl, rfl⟩
  obtain ⟨g1, g2, g3⟩ := tint_goto (E := E) (lit := lit) (T0 := T0)
    { s with undoes := { pos := 0, del := 0, text := s.text } :: s.undoes }
  obtain ⟨f1, f2, f3, f4⟩ := tint_erase (E := E) (lit := lit) (T0 := T0)
    (gotoHead { s with undoes := { pos := 0, del := 0, text := s.text } :: s.undoes })
  refine ⟨f1.trans g1, rfl, fun x hx => f2 x ?_⟩
  rw [g1]
  exact hx

theorem showHistory_right (hV : Vivid E lit) (s : St) :
    Wp Any (showHistory E s) (fun p => Right E lit T0 p.1) := by
  unfold showHistory
  refine Wp.seq (cmdKillWholeLine_swept (E := E) (lit := lit) (T0 := T0) s) fun p h1 => ?_
  obtain ⟨s1, n⟩ := p
  obtain ⟨h1, hv, hc⟩ := h1
  dsimp only at *
  refine Wp.seq Wp.any fun t _ => ?_
  split
  · refine Wp.of_ok fun p hp => ?_
    obtain ⟨⟨s2, n⟩, h2, hp⟩ := bind_ok.mp hp
    obtain ⟨_, _, _, _, ⟨b, u, e⟩, _⟩ := insertString_ok h2
    dsimp only at e hp
    refine Wp.ok (Q := Any) (P := fun p : St × Result => Right E lit T0 p.1) ?_ hp
    refine Wp.seq (cmdEndOfLine_right (T0 := T0) hV (Swept.right hV ?_)) fun p h3 => h3
    obtain ⟨a1, a2, a3⟩ := h1
    rw [e]
    exact ⟨a1, rfl, a3⟩
  · exact h1.right hV

/-! ### SwapChar -/

/-- What is assumed when two characters are swapped: it happens at the end of the line; or there is no tab and
all characters are equally wide, and nothing is shown from the cursor on, or there is room for both and
the order does not matter to the colours. -/
def Spec.Swappable (E : Env) (s : St) (t : Tint) : Prop :=
  s.cursor = s.len ∨
  SameWidths E s ∧ (∀ p, Moji.tab p ∉ s.mojis) ∧
    ((∀ x, place E s s.cursor ≤ x → t.row.cells x = none) ∨
      columns E.cfg (s.between s.viewStart (s.cursor + 1)) < s.viewWidth ∧ OrderBlind E.coloring)

theorem place_same {k : Int} (hk : ∀ m ∈ s.mojis, m.width E.cfg = k) {i : Int} (h0 : 0 ≤ s.viewStart)
    (h1 : s.viewStart ≤ i) (h2 : i ≤ s.len) : place E s i = s.topColumn + k * (i - s.viewStart) := by
  unfold place
  rw [columns_same hk _ (fun m hm => between_mem hm), between_length h0 h1 h2]

theorem swapAt_shape {l : List α} {i : Nat} (h : i + 1 < l.length) : ∃ a c, l = l.take i ++ a :: c :: l.drop (i + 2) ∧
    swapAt l i = l.take i ++ c :: a :: l.drop (i + 2) := by
  refine ⟨l[i], l[i + 1], ?_, ?_⟩
  · conv => lhs; rw [← List.take_append_drop i l]
    rw [List.drop_eq_getElem_cons (by omega), List.drop_eq_getElem_cons h]
  · unfold swapAt
    rw [List.getElem?_eq_getElem (by omega), List.getElem?_eq_getElem h]
    dsimp only
    have hl : (l.take i).length = i := by rw [List.length_take]; omega
    have e : l = l.take i ++ l[i] :: l[i + 1] :: l.drop (i + 2) := by
      conv => lhs; rw [← List.take_append_drop i l]
      rw [List.drop_eq_getElem_cons (by omega), List.drop_eq_getElem_cons h]
    generalize l[i] = a at *
    generalize l[i + 1] = c at *
    generalize l.drop (i + 2) = d at *
    generalize l.take i = u at *
    subst e
    rw [List.set_append_right _ _ (by omega), hl, Nat.sub_self, List.set_cons_zero,
      List.set_append_right _ _ (by omega), hl, Nat.add_sub_cancel_left, List.set_cons_succ, List.set_cons_zero]

theorem orderBlind_one {K : Coloring} (hK : OrderBlind K) (r : Rune) (c : List Rune) (σ : K.σ) :
    (K.next (c.foldl (fun σ r => (K.next σ r).1) σ) r).1 = c.foldl (fun σ r => (K.next σ r).1) (K.next σ r).1 := by
  induction c generalizing σ with
  | nil => rfl
  | cons x c ih =>
    rw [List.foldl_cons, List.foldl_cons, ih, hK]

theorem orderBlind_lists {K : Coloring} (hK : OrderBlind K) (a c : List Rune) (σ : K.σ) :
    (a ++ c).foldl (fun σ r => (K.next σ r).1) σ = (c ++ a).foldl (fun σ r => (K.next σ r).1) σ := by
  induction a generalizing σ with
  | nil => simp
  | cons r a ih =>
    rw [List.cons_append, List.foldl_cons, ih, List.foldl_append, List.foldl_append, List.foldl_cons,
      orderBlind_one hK]

/-- The colours behind two swapped units. -/
theorem colourOf_swap {C : Cfg} {K : Coloring} (hK : OrderBlind K) {l : List Moji} {i j : Nat} (h : i + 1 < l.length)
    (hj : i + 2 ≤ j) (hj2 : j < l.length) : colourOf C K (swapAt l i) j = colourOf C K l j := by
  obtain ⟨a, c, e1, e2⟩ := swapAt_shape h
  have hl : (l.take i).length = i := by rw [List.length_take]; omega
  have hd : (l.drop (i + 2)).length = l.length - (i + 2) := List.length_drop
  unfold colourOf
  rw [e2]
  conv => rhs; rw [e1]
  generalize l.take i = u at *
  generalize l.drop (i + 2) = d at *
  have ht : ∀ x y : Moji, (u ++ x :: y :: d).take (j + 1) = u ++ x :: y :: d.take (j - i - 1) := by
    intro x y
    rw [List.take_append, List.take_of_length_le (by omega), hl, show j + 1 - i = (j - i - 1) + 2 by omega]
    rfl
  rw [ht, ht]
  have hne : d.take (j - i - 1) ≠ [] := by
    intro h0
    have := congrArg List.length h0
    rw [List.length_take, List.length_nil] at this
    omega
  have hfl : (d.take (j - i - 1)).flatMap (toldFor C) ≠ [] := by
    cases hq : d.take (j - i - 1) with
    | nil => exact absurd hq hne
    | cons m ms =>
      rw [List.flatMap_cons]
      intro h0
      exact toldFor_ne m (List.append_eq_nil_iff.mp h0).1
  have hf : ∀ x y : Moji, (u ++ x :: y :: d.take (j - i - 1)).flatMap (toldFor C) =
      (u.flatMap (toldFor C) ++ (toldFor C x ++ toldFor C y)) ++ (d.take (j - i - 1)).flatMap (toldFor C) := by
    intro x y
    simp [List.append_assoc]
  rw [hf, hf]
  refine lastAnswer_state ?_ hfl
  rw [afterTold_append, afterTold_append]
  exact orderBlind_lists hK _ _ _

theorem mojis_swap {i : Nat} : St.mojis { s with buf := swapAt s.buf i } = swapAt s.mojis i := by
  unfold St.mojis
  exact swapAt_map _ _ _

theorem swapAt_get {l : List α} {i j : Nat} (h : i + 1 < l.length) (hj : i + 2 ≤ j) : (swapAt l i)[j]? = l[j]? := by
  have := swapAt_drop l i (i + 2) (Nat.le_refl _)
  have h1 : ((swapAt l i).drop (i + 2))[j - (i + 2)]? = (l.drop (i + 2))[j - (i + 2)]? := by rw [this]
  rw [List.getElem?_drop, List.getElem?_drop, show i + 2 + (j - (i + 2)) = j by omega] at h1
  exact h1

theorem swap_right (hV : Vivid E lit) (hr : Right E lit T0 s) (hw : Swappable E s (tintOf E lit T0 s)) {s3 : St}
    (hb : s3.buf = swapAt s.buf (s.cursor - 1).toNat) (hcur : s3.cursor = s.cursor + 1)
    (hvs : s3.viewStart = s.viewStart + 1 ∨
      s3.viewStart = s.viewStart ∧ columns E.cfg (s.between s.viewStart (s.cursor + 1)) < s.viewWidth)
    (hvs2 : columns E.cfg (s.between s.viewStart (s.cursor + 1)) < s.viewWidth → s3.viewStart = s.viewStart)
    (htop : s3.topColumn = s.topColumn) (hout : s3.out = (gotoHead s).out) (hc : 1 ≤ s.cursor) (hlen : s.cursor + 1 ≤ s.len)
    (hv0 : 0 ≤ s.viewStart) (h : puts E s3 s3.viewStart s3.cursor = .ok s1) : Right E lit T0 s1 := by
  obtain ⟨⟨o, e⟩, _, hm1, hl, ⟨b1, b2, b3⟩, _⟩ := puts_tint hV.width hV.colours hV.blind (lit := lit) h
  have hm3 : s3.mojis = swapAt s.mojis (s.cursor - 1).toNat := by
    unfold St.mojis; rw [hb]; exact swapAt_map _ _ _
  have ht : tintOf E lit T0 s3 = tintOf E lit T0 (gotoHead s) := by unfold tintOf; rw [hout]
  obtain ⟨g1, g2, g3⟩ := tint_goto (E := E) (lit := lit) (T0 := T0) s
  have hvs1 : s1.viewStart = s3.viewStart := by rw [e]
  have htop1 : s1.topColumn = s.topColumn := by rw [← htop, e]
  have hml := mojis_length s
  have hmid := hr.mid
  refine right_of_left (T0 := T0) hV h (Int.le_refl _) ?_ ?_ ?_
  · rw [ht, g1, ← hvs1, place_top, htop1]
  · intro i m x a1 a2; omega
  · intro i m x a1 hm hx1 hx2 hne
    rw [ht] at hne ⊢
    rw [g2] at hne
    rw [g3]
    rw [hcur] at a1
    rcases hw with hw | ⟨⟨k, hk⟩, hT, hw⟩
    · omega
    have hmem : ∀ m ∈ s3.mojis, m ∈ s.mojis := fun m hm => by rw [hm3] at hm; exact swapAt_mem hm
    have ha3 : s3.aligned E := St.noTabs_aligned fun p hp => hT p (hmem _ hp)
    have hm' : s1.mojis = swapAt s.mojis (s.cursor - 1).toNat := (hm1 ha3).trans hm3
    have hk1 : ∀ m ∈ s1.mojis, m.width E.cfg = k := fun m hm => hk m (by rw [hm'] at hm; exact swapAt_mem hm)
    have hlt := lt_len hm
    have hll : s1.len = s.len := by
      rw [← mojis_length, hm', swapAt_length, mojis_length]
    have hk0 : 0 ≤ k := by
      have := List.mem_of_getElem? hm
      rw [← hk1 m this]; exact hV.width m
    have hp1 : place E s1 i = s.topColumn + k * (i - s1.viewStart) := by
      rw [place_same hk1 (by omega) (by omega) (by omega), htop1]
    have hold : s.mojis[i]? = some m := by
      rw [hm', swapAt_get (by omega) (by omega)] at hm; exact hm
    rcases hw with hw | ⟨hf, ho⟩
    · exfalso
      apply hne
      apply hw
      rw [place_same hk hv0 hmid (by omega)]
      have : k * (s.cursor - s.viewStart) ≤ k * (i - s1.viewStart) := Int.mul_le_mul_of_nonneg_left (by omega) hk0
      omega
    · have hv : s1.viewStart = s.viewStart := hvs1.trans (hvs2 hf)
      have hp : place E s i = place E s1 i := by
        rw [hp1, place_same hk hv0 (by omega) (by omega), hv]
      have := hr.inks i m x (by omega) hold (by rw [hp]; exact hx1) (by rw [hp]; exact hx2) hne
      rw [this, hm', colourOf_swap ho (by omega) (by omega) (by omega)]

theorem cmdSwapChar_right (hV : Vivid E lit) (hr : Right E lit T0 s) (hw : Swappable E s (tintOf E lit T0 s)) :
    Wp Any (cmdSwapChar E s) (fun p => Right E lit T0 p.1) := by
  refine Wp.of_ok fun p h => ?_
  unfold cmdSwapChar at h
  split at h
  · rename_i hc
    split at h
    · rw [← pure_ok.mp h]; exact hr
    · obtain ⟨two, h1, h⟩ := bind_ok.mp h
      obtain ⟨s1, h2, h⟩ := bind_ok.mp h
      rw [← pure_ok.mp h]
      obtain ⟨⟨o, e⟩, _, _, hl, _, _⟩ := puts_tint hV.width hV.colours hV.blind (lit := lit) h2
      refine right_of_left (T0 := T0) hV h2 (Int.le_refl _) ?_ ?_ ?_
      · rw [(tint_goto _).1]
        have hv : s1.viewStart = s.viewStart := by rw [e]; rfl
        have ht : s1.topColumn = s.topColumn := by rw [e]; rfl
        show s.topColumn = place E s1 s.viewStart
        rw [← hv, place_top, ht]
      · intro i m x a1 a2; omega
      · intro i m x a1 a2
        exfalso
        have a3 : (i : Int) < s1.len := lt_len a2
        have a4 : s1.len = s.len := by
          rw [hl]
          have : ∀ b, St.len (gotoHead { s with undoes := b, buf := swapAt s.buf (s.cursor - 2).toNat }) = s.len := by
            intro b
            show ((swapAt s.buf (s.cursor - 2).toNat).length : Int) = s.buf.length
            rw [swapAt_length]
          exact this _
        have a5 : s.cursor ≤ i := a1
        omega
  · rename_i hc
    split at h
    · rw [← pure_ok.mp h]; exact hr
    · rename_i hc1
      obtain ⟨two, h1, h⟩ := bind_ok.mp h
      obtain ⟨w, h3, h⟩ := bind_ok.mp h
      obtain ⟨s1, h2, h⟩ := bind_ok.mp h
      rw [← pure_ok.mp h]
      obtain ⟨w1, w2, w3, w4⟩ := widthBetween_columns h3
      replace w1 : 0 ≤ s.viewStart := w1
      replace w2 : s.viewStart ≤ s.cursor + 1 := w2
      replace w3 : s.cursor + 1 ≤ s.len := w3
      replace w4 : w = columns E.cfg (s.between s.viewStart (s.cursor + 1)) := w4
      have hmid := hr.mid
      refine swap_right hV hr hw (s3 := _) ?_ ?_ ?_ ?_ ?_ ?_ (by omega) w3 w1 h2
      · split <;> rfl
      · split <;> rfl
      · split
        · exact Or.inl rfl
        · rename_i hn
          refine Or.inr ⟨rfl, ?_⟩
          rw [← w4]
          have : ¬ w ≥ s.viewWidth := hn
          omega
      · intro hf
        rw [← w4] at hf
        rw [if_neg (by
          show ¬ w ≥ s.viewWidth
          omega)]
        rfl
      · split <;> rfl
      · split <;> rfl

/-! ### All commands -/

theorem call_right_most (hV : Vivid E lit) {c : Cmd} (hb : c.builtin = true) (hq : c ≠ .quotedInsert)
    (hs : c ≠ .isearchBackward) (hn : c ≠ .interrupt) {s : St} (ha : s.aligned E) (h : Right E lit T0 s)
    (hw : c = .swapChar → Swappable E s (tintOf E lit T0 s)) :
    Wp Any (Cmd.call E c s) (fun p => Right E lit T0 p.1) := by
  cases c with
  | quotedInsert => exact absurd rfl hq
  | isearchBackward => exact absurd rfl hs
  | custom f => cases hb
  | completion P =>
    exact cmdComplete_wp trivial h (h.emit hV.bell) (fun _ => repaintAll_right hV _)
      (fun _ _ _ _ => replaceAndRepaint_right hV _ _ _)
  | acceptLine => exact h
  | interrupt => exact absurd rfl hn
  | beginningOfLine => exact Wp.contRight (repaint_right hV)
  | backwardChar =>
    simp only [Cmd.call, cmdBackwardChar]
    split
    · exact h
    · exact Wp.contRight (repaint_right hV)
  | endOfLine => exact cmdEndOfLine_right hV (h.refreshed ha)
  | forwardChar => exact cmdForwardChar_right hV ha h
  | backwardDeleteChar => exact cmdBackwardDeleteChar_right hV h
  | deleteChar => exact cmdDeleteChar_right hV _
  | deleteOrAbort =>
    simp only [Cmd.call, cmdDeleteOrAbort]
    split
    · exact cmdDeleteChar_right hV _
    · exact h
  | killLine => exact cmdKillLine_right hV h
  | killWholeLine => exact Wp.mono (cmdKillWholeLine_swept s) fun _ _ h1 => h1.1.right hV
  | unixWordRubout =>
    simp only [Cmd.call, cmdUnixWordRubout]
    refine Wp.seq Wp.any fun _ _ => ?_
    refine Wp.seq Wp.any fun _ _ => ?_
    refine Wp.seq Wp.any fun _ _ => ?_
    refine Wp.seq Wp.any fun p _ => ?_
    exact Wp.contRight (repaint_right hV)
  | unixLineDiscard =>
    simp only [Cmd.call, cmdUnixLineDiscard]
    refine Wp.seq Wp.any fun _ _ => ?_
    refine Wp.seq Wp.any fun p _ => ?_
    exact Wp.contRight (repaint_right hV)
  | clearScreen => exact Wp.contRight (repaintAll_right hV _)
  | repaintOnNewline => exact Wp.contRight (repaintAll_right hV _)
  | yank =>
    simp only [Cmd.call, cmdYank]
    cases s.clip with
    | none => exact h
    | some t => exact Wp.contRight (replaceAndRepaint_right hV _ _ _)
  | yankWithQuote =>
    simp only [Cmd.call, cmdYankWithQuote]
    cases s.clip with
    | none => exact h
    | some t => exact Wp.contRight (replaceAndRepaint_right hV _ _ _)
  | swapChar => exact cmdSwapChar_right hV h (hw rfl)
  | backwardWord =>
    simp only [Cmd.call, cmdBackwardWord]
    refine Wp.seq Wp.any fun _ _ => ?_
    exact Wp.contRight (repaint_right hV)
  | forwardWord =>
    simp only [Cmd.call, cmdForwardWord]
    refine Wp.seq Wp.any fun _ _ => ?_
    refine Wp.seq Wp.any fun _ _ => ?_
    split
    · refine Wp.of_ok fun p hp => ?_
      obtain ⟨s1, h1, hp⟩ := bind_ok.mp hp
      rw [← pure_ok.mp hp]
      exact advance_right hV h1 (h.refreshed ha)
    · exact Wp.contRight (repaint_right hV)
  | undo =>
    simp only [Cmd.call, cmdUndo]
    cases s.undoes with
    | nil => exact h.emit hV.bell
    | cons u rest =>
      dsimp only
      have fin : ∀ s2 : St, Wp Any (do
          let s2 ← repaint E (resetViewStart E s2)
          pure (s2, Result.cont)) (fun p => Right E lit T0 p.1) :=
        fun s2 => Wp.contRight (repaint_right hV)
      split
      · refine Wp.seq Wp.any fun b1 _ => ?_
        split
        · exact Wp.seq Wp.any fun s2 _ => fin s2
        · exact Wp.seq Wp.any fun s2 _ => fin s2
      · refine Wp.seq Wp.any fun b1 _ => ?_
        split
        · exact Wp.seq Wp.any fun s2 _ => fin s2
        · exact Wp.seq Wp.any fun s2 _ => fin s2
  | previousHistory =>
    simp only [Cmd.call, cmdPreviousHistory]
    split
    · exact h
    · split
      · exact h
      · exact Wp.seq Wp.any fun s1 _ => showHistory_right hV _
  | nextHistory =>
    simp only [Cmd.call, cmdNextHistory]
    split
    · exact h
    · split
      · exact h
      · exact Wp.seq Wp.any fun s1 _ => showHistory_right hV _
  | selfInsert k => exact cmdSelfInsert_right hV h k

theorem cmdQuotedInsert_right (hV : Vivid E lit) (h : Right E lit T0 s) :
    Wp Any (cmdQuotedInsert E s) (fun p => Right E lit T0 p.1) := by
  unfold cmdQuotedInsert
  dsimp only
  have h0 : Right E lit T0 (s.emit .cursorOn) := h.emit
  generalize hg : getKey (s.emit .cursorOn) = g
  obtain ⟨k, s1⟩ := g
  have h1 : Right E lit T0 s1 := by
    obtain ⟨rest, e⟩ := getKey_state hg
    rw [e]
    exact Right.of (h0.emit (t := .await))
  cases k with
  | none => exact h1.emit
  | some k =>
    dsimp only
    refine Wp.seq (cmdSelfInsert_right hV h1 k) fun p h2 => ?_
    exact Wp.pure (Right.emit h2)

/-- The incremental search, if it is not left by an error of the terminal. -/
theorem isearchLoop_right (hV : Vivid E lit) (n : Nat) (it : ISt) (s : St) (hE : ErrorsLast s.input) :
    Wp Any (isearchLoop E n it s) (fun p => noResize p.1.input ≠ [] → Right E lit T0 p.1) := by
  induction n generalizing it s with
  | zero => trivial
  | succ n ih =>
    unfold isearchLoop
    refine Wp.of_ok fun p hp => ?_
    obtain ⟨s1, h1, hp⟩ := bind_ok.mp hp
    obtain ⟨l, e1⟩ := drawLoop_glyphs _ _ h1
    refine Wp.ok (Q := Any) (P := fun p : St × Result => noResize p.1.input ≠ [] → Right E lit T0 p.1) ?_ hp
    dsimp only
    generalize hg : getKey ((eraseline s1).emit .cursorOn) = g
    obtain ⟨ok, s2⟩ := g
    obtain ⟨g1, g2⟩ := getKey_input hg
    have hi : ((eraseline s1).emit .cursorOn).input = s.input := by
      show s1.input = s.input
      rw [e1]
    rw [hi] at g1 g2
    cases ok with
    | none => exact fun hk => absurd rfl (g2 hE hk)
    | some key =>
      dsimp only
      have hE2 : ErrorsLast (gotoHead (s2.emit .cursorOff)).input := hE.sub g1
      have hgo := tint_goto (E := E) (lit := lit) (T0 := T0) (s2.emit .cursorOff)
      have hgo1 : (tintOf E lit T0 (gotoHead (s2.emit .cursorOff))).row.col = (gotoHead (s2.emit .cursorOff)).topColumn := hgo.1
      generalize gotoHead (s2.emit .cursorOff) = s3 at *
      have rep : ∀ q, Wp Any (do
          let s ← replaceAndRepaint E q 0 it.found
          pure (s, Result.cont)) (fun p => noResize p.1.input ≠ [] → Right E lit T0 p.1) := fun q =>
        Wp.mono (Wp.contRight (T0 := T0) (replaceAndRepaint_right hV q 0 it.found)) fun _ _ h1 _ => h1
      split
      · exact ih _ _ hE2
      · split
        · exact rep _
        · split
          · refine Wp.of_ok fun p hp _ => ?_
            obtain ⟨q, _, hp⟩ := bind_ok.mp hp
            obtain ⟨s4, h4, hp⟩ := bind_ok.mp hp
            obtain ⟨s5, h5, hp⟩ := bind_ok.mp hp
            rw [← pure_ok.mp hp]
            have hf := fresh_right (T0 := T0) hV h4 hgo1
            obtain ⟨⟨o4, e4⟩, ha4, _, _, ⟨b1, b2, b3⟩, _⟩ := puts_tint hV.width hV.colours hV.blind (lit := lit) h4
            obtain ⟨⟨o5, e5⟩, _, hm5, _, _, _⟩ := puts_tint hV.width hV.colours hV.blind (lit := lit) h5
            have hm : s5.mojis = s4.mojis := hm5 ha4
            have hv5 : s5.viewStart = s4.viewStart := by rw [e5]; rfl
            have ht5 : s5.topColumn = s4.topColumn := by rw [e5]; rfl
            have hpl := place_eq (E := E) hm hv5 ht5
            obtain ⟨k1, k2, k3⟩ := tint_goto (E := E) (lit := lit) (T0 := T0) (eraseline s4)
            refine right_of_left (T0 := T0) hV h5 (Int.le_refl _) ?_ ?_ ?_
            · rw [k1]
              show s4.topColumn = place E s5 s4.viewStart
              rw [hpl, place_top]
            · intro i m x a1 a2; omega
            · intro i m x a1 hm' hx1 hx2 hne
              rw [k2] at hne
              rw [k3, hm]
              rw [hm] at hm'
              rw [hpl] at hx1 hx2
              have hmid : (gotoHead (eraseline s4)).viewStart ≤ (gotoHead (eraseline s4)).cursor := by
                have := (puts_tint hV.width hV.colours hV.blind (lit := lit) h5).2.2.2.2.1.2.1
                exact this
              exact hf.inks i m x (by
                show s4.viewStart ≤ i
                have h6 : s4.viewStart ≤ s4.cursor := hmid
                have h7 : s4.cursor ≤ i := a1
                omega) hm' hx1 hx2 hne
          · split
            · exact Wp.seq Wp.any fun it' _ => ih _ _ hE2
            · split
              · exact Wp.seq Wp.any fun it' _ => ih _ _ hE2
              · split
                · exact ih _ _ hE2
                · exact ih _ _ hE2

theorem call_right (hV : Vivid E lit) {c : Cmd} (hb : c.builtin = true) {s : St} (ha : s.aligned E) (h : Right E lit T0 s)
    (hw : c = .swapChar → Swappable E s (tintOf E lit T0 s)) (hE : ErrorsLast s.input) :
    Wp Any (Cmd.call E c s) (fun p => p.2 = .cont → noResize p.1.input ≠ [] → Right E lit T0 p.1) := by
  by_cases hq : c = .quotedInsert
  · subst hq
    exact Wp.mono (cmdQuotedInsert_right hV h) fun _ _ h1 _ _ => h1
  · by_cases hs : c = .isearchBackward
    · subst hs
      exact Wp.mono (isearchLoop_right hV _ _ _ hE) fun _ _ h1 _ => h1
    · by_cases hn : c = .interrupt
      · subst hn
        exact fun h => nomatch h
      · exact Wp.mono (call_right_most hV hb hq hs hn ha h hw) fun _ _ h1 _ _ => h1

theorem step_right (hV : Vivid E lit) (hb : BuiltinKeys E) (ha : s.aligned E) (h : Right E lit T0 s)
    (hw : ∀ k rest, s.input = .key k :: rest → lookupCommand E k = .swapChar → Swappable E s (tintOf E lit T0 s))
    (hE : ErrorsLast s.input) (hst : step E s = .ok (s', none)) (hk : noResize s'.input ≠ []) : Right E lit T0 s' := by
  rcases step_cases hst with ⟨n, rest, hi⟩ | ⟨k, rest, hi⟩
  · rw [step, hi] at hst
    obtain ⟨s1, h1, hst⟩ := bind_ok.mp hst
    cases hst
    exact (repaintLastLine_right (T0 := T0) hV _).ok h1
  · rw [step, hi] at hst
    dsimp only at hst
    unfold execCmd at hst
    obtain ⟨⟨s1, rc⟩, h1, hst⟩ := bind_ok.mp hst
    have h0 : Right E lit T0 (({ s.emit .await with input := rest }).emit .cursorOff) :=
      Right.emit (Right.of (s := s.emit .await) (h.emit (t := .await)))
    have ht : ∀ i : List Ev, (tintOf E lit T0 (({ s.emit .await with input := i }).emit .cursorOff)) = tintOf E lit T0 s := by
      intro i
      rw [tintOf_append (s := s) (t := [.await, .cursorOff]) (by simp [St.emit])]
      rfl
    have hsw : lookupCommand E k = .swapChar → Swappable E (({ s.emit .await with input := rest }).emit .cursorOff)
        (tintOf E lit T0 (({ s.emit .await with input := rest }).emit .cursorOff)) := by
      intro hc
      rw [ht]
      exact hw k rest hi hc
    have h2 := (call_right (T0 := T0) hV (BuiltinKeys.builtin hb k) (s := ({ s.emit .await with input := rest }).emit .cursorOff)
      (by exact ha) h0 hsw (hE.sub (by rw [hi]; exact List.sublist_cons_self _ _))).ok h1
    dsimp only at hst
    cases rc with
    | cont => cases hst; exact Right.emit (h2 rfl hk)
    | _ =>
      obtain ⟨⟨s2, r⟩, h2, hst⟩ := bind_ok.mp hst
      cases hst

/-- Whenever a key is awaited the colours are right. -/
theorem session_right {w : World} (hV : Vivid E lit) (hb : BuiltinKeys E) (hE : ErrorsLast w.input)
    (hw : ∀ s k rest, Reachable E w s → s.input = .key k :: rest → lookupCommand E k = .swapChar →
      Swappable E s (tintOf E lit T0 s))
    (h : Reachable E w s) (hk : noResize s.input ≠ []) : Right E lit T0 s := by
  induction h with
  | start h =>
    unfold startSt at h
    obtain ⟨q, h1, h⟩ := bind_ok.mp h
    obtain ⟨s2, h2, h⟩ := bind_ok.mp h
    cases pure_ok.mp h
    exact Right.emit ((repaint_right (T0 := T0) hV).ok h2)
  | @step s s' h hst ih =>
    have hin := reachable_input hb h
    obtain ⟨ev, rest, h1, h2⟩ := step_sublist hb hst
    have hsub : s'.input.Sublist s.input := by rw [h1]; exact h2.trans (List.sublist_cons_self _ _)
    exact step_right hV hb (reachable_aligned hb h) (ih (noResize_sub hsub hk)) (fun k rest => hw s k rest h)
      (hE.sub hin) hst hk

end Readline
