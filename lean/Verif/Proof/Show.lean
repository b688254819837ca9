import Verif.Proof.Aligned
import Verif.Spec.Shown
/-!
# What a repaint shows
-/
namespace Readline
open Spec

variable {C : Cfg} {lit : Bytes → Row → Row}

theorem between_map (s : St) (lo hi : Int) :
    ((s.buf.take hi.toNat).drop lo.toNat).map Cell.moji = s.between lo hi := by
  simp [St.between, St.mojis, List.map_take, List.map_drop]

theorem mojis_length (s : St) : (s.mojis.length : Int) = s.len := by simp [St.mojis, St.len]

theorem widthBetween_columns {E : Env} {s : St} {lo hi w : Int} (h : widthBetween E s lo hi = .ok w) :
    0 ≤ lo ∧ lo ≤ hi ∧ hi ≤ s.len ∧ w = columns E.cfg (s.between lo hi) := by
  obtain ⟨h1, h2, h3, h4⟩ := widthBetween_ok h
  refine ⟨h1, h2, h3, ?_⟩
  rw [h4, cellsWidth_mojis, between_map, columns_eq]

/-- `puts` prints the units `lo..hi` when the tabs are in their columns. -/
theorem puts_row {E : Env} {s s' : St} {lo hi : Int} (ha : s.aligned E) (h : puts E s lo hi = .ok s') :
    (∃ b o, s' = { s with buf := b, out := o }) ∧ s'.mojis = s.mojis ∧
    (0 ≤ lo ∧ lo ≤ hi ∧ hi ≤ s.len) ∧
    Draws E.cfg lit s s' (fun r => r.puts E.cfg (s.between lo hi)) := by
  obtain ⟨⟨o, e⟩, hd⟩ := puts_draws (lit := lit) h
  have hm : s'.mojis = s.mojis := by
    rw [e]; exact refreshed_id ha
  refine ⟨⟨_, _, e⟩, hm, ?_, ?_⟩
  · unfold puts at h
    obtain ⟨x, h0, h⟩ := bind_ok.mp h
    have := slice_ok h0
    exact ⟨this.1, this.2.1, this.2.2.1⟩
  · refine hd.congr fun r => ?_
    rw [between_map]
    unfold St.between
    rw [hm]

theorem viewLoop_fits (vw : Int) (cs : List Cell) (w : Int) (n : Nat) :
    ∃ shown, FitsIn C (vw - w) (cs.map Cell.moji) shown ∧
      viewLoop C vw cs w n = (n + shown.length, w + columns C shown) := by
  induction cs generalizing w n with
  | nil =>
    refine ⟨[], ⟨[], rfl, Or.inl rfl, by intro m tail e; cases e⟩, ?_⟩
    simp [viewLoop, columns]
  | cons c cs ih =>
    rw [viewLoop]
    split
    · rename_i hw
      refine ⟨[], ⟨_, rfl, Or.inl rfl, ?_⟩, by simp [columns]⟩
      intro m tail e
      injection e with e1 e2
      subst e1
      simp only [columns]; omega
    · rename_i hw
      obtain ⟨shown, ⟨rest, e, h1, h2⟩, h3⟩ := ih (w + c.moji.width C) (n + 1)
      refine ⟨c.moji :: shown, ⟨rest, by rw [List.map_cons, e]; rfl, Or.inr ?_, ?_⟩, ?_⟩
      · show c.moji.width C + columns C shown < vw - w
        rcases h1 with rfl | h1
        · simp only [columns]; omega
        · omega
      · intro m tail e2
        have := h2 m tail e2
        show vw - w ≤ c.moji.width C + columns C shown + m.width C
        omega
      · rw [h3]
        show _ = (_, w + (c.moji.width C + columns C shown))
        congr 1
        · simp; omega
        · omega

theorem suffixLoop_draws {vw w : Int} {ms : List Moji} {s s' : St} (h : suffixLoop C vw ms w s = .ok s') :
    ∃ shown, FitsIn C (vw - w) ms shown ∧ (∃ o, s' = { s with out := o }) ∧
      Draws C lit s s' (fun r => r.puts C shown) := by
  induction ms generalizing w s with
  | nil =>
    cases h
    exact ⟨[], ⟨[], rfl, Or.inl rfl, by intro m tail e; cases e⟩, ⟨_, rfl⟩, Draws.refl⟩
  | cons m ms ih =>
    unfold suffixLoop at h
    dsimp only at h
    split at h
    · rename_i hw
      cases h
      refine ⟨[], ⟨_, rfl, Or.inl rfl, ?_⟩, ⟨_, rfl⟩, Draws.refl⟩
      intro m' tail e
      injection e with e1 e2
      subst e1
      simp only [columns]; omega
    · rename_i hw
      obtain ⟨s1, h1, h2⟩ := bind_ok.mp h
      obtain ⟨t, e1⟩ := printMoji_eq h1
      obtain ⟨shown, ⟨rest, e, h3, h4⟩, ⟨o, eo⟩, hd⟩ := ih h2
      refine ⟨m :: shown, ⟨rest, by rw [e]; rfl, Or.inr ?_, ?_⟩, ⟨o, by rw [eo, e1]⟩, ?_⟩
      · show m.width C + columns C shown < vw - w
        rcases h3 with rfl | h3
        · simp only [columns]; omega
        · omega
      · intro m' tail e2
        have := h4 m' tail e2
        show vw - w ≤ m.width C + columns C shown + m'.width C
        omega
      · exact (printMoji_draws (lit := lit) h1).trans hd

/-- The tokens written from `s` to `s'`, whatever the row was before, make the row satisfy `P`, and
no unit is printed beyond column `lim`. -/
def Paints (C : Cfg) (lit : Bytes → Row → Row) (lim : Int) (s s' : St) (P : Row → Prop) : Prop :=
  ∃ t, s'.out = s.out ++ t ∧ ∀ r, P (Row.run C lit r t) ∧ (Row.run C lit r t).high ≤ max r.high lim

theorem Draws.paints {lim : Int} {s s' : St} {f : Row → Row} {P : Row → Prop} (h : Draws C lit s s' f)
    (hp : ∀ r, P (f r) ∧ (f r).high ≤ max r.high lim) : Paints C lit lim s s' P := by
  obtain ⟨t, e, hr⟩ := h
  exact ⟨t, e, fun r => by rw [hr]; exact hp r⟩

theorem Paints.after {lim : Int} {s s1 s2 : St} {P : Row → Prop} {f : Row → Row}
    (h : Paints C lit lim s1 s2 P) (hd : Draws C lit s s1 f) (hf : ∀ r, (f r).high ≤ max r.high lim) :
    Paints C lit lim s s2 P := by
  obtain ⟨t1, e1, h1⟩ := hd
  obtain ⟨t2, e2, h2⟩ := h
  refine ⟨t1 ++ t2, by rw [e2, e1, List.append_assoc], fun r => ?_⟩
  rw [run_append, h1]
  refine ⟨(h2 _).1, ?_⟩
  have := (h2 (f r)).2
  have := hf r
  omega

theorem Paints.then {lim : Int} {s s1 s2 : St} {P Q : Row → Prop}
    (h : Paints C lit lim s s1 Q) (h' : Paints C lit lim s1 s2 P) : Paints C lit lim s s2 P := by
  obtain ⟨t1, e1, h1⟩ := h
  obtain ⟨t2, e2, h2⟩ := h'
  refine ⟨t1 ++ t2, by rw [e2, e1, List.append_assoc], fun r => ?_⟩
  rw [run_append]
  refine ⟨(h2 _).1, ?_⟩
  have := (h2 (Row.run C lit r t1)).2
  have := (h1 r).2
  omega

theorem Paints.imp {lim : Int} {s s' : St} {P Q : Row → Prop} (h : Paints C lit lim s s' P)
    (hp : ∀ r, P r → Q r) : Paints C lit lim s s' Q := by
  obtain ⟨t, e, hr⟩ := h
  exact ⟨t, e, fun r => ⟨hp _ (hr r).1, (hr r).2⟩⟩

/-- The part of the line left of the cursor is in the view. -/
structure InView (E : Env) (s : St) : Prop where
  low : 0 ≤ s.viewStart
  mid : s.viewStart ≤ s.cursor
  high : s.cursor ≤ s.len
  fits : columns E.cfg (s.between s.viewStart s.cursor) < s.viewWidth

theorem between_split {s : St} {lo mid hi : Int} (h1 : lo ≤ mid) (h2 : mid ≤ hi) :
    s.between lo hi = s.between lo mid ++ s.between mid hi := by
  unfold St.between
  have e : s.mojis.take hi.toNat = s.mojis.take mid.toNat ++ (s.mojis.take hi.toNat).drop mid.toNat := by
    conv => lhs; rw [← List.take_append_drop mid.toNat (s.mojis.take hi.toNat), List.take_take,
      Nat.min_eq_left (by omega)]
  conv => lhs; rw [e]
  by_cases h : lo.toNat ≤ (s.mojis.take mid.toNat).length
  · rw [List.drop_append_of_le_length h]
  · have hl : s.mojis.length ≤ lo.toNat := by
      rw [List.length_take] at h; omega
    rw [List.drop_append, List.drop_eq_nil_of_le (by rw [List.length_take]; omega),
      List.drop_eq_nil_of_le (as := List.take hi.toNat s.mojis) (by rw [List.length_take]; omega)]
    simp

theorem between_end (s : St) {lo : Int} (hi : Int) (h : s.len ≤ hi) : s.between lo hi = s.mojis.drop lo.toNat := by
  unfold St.between
  rw [List.take_of_length_le]
  have := mojis_length s
  omega

theorem between_length {s : St} {lo hi : Int} (h0 : 0 ≤ lo) (h1 : lo ≤ hi) (h2 : hi ≤ s.len) :
    ((s.between lo hi).length : Int) = hi - lo := by
  unfold St.between
  have := mojis_length s
  rw [List.length_drop, List.length_take]
  omega

theorem between_congr {s s' : St} (h : s'.mojis = s.mojis) (lo hi : Int) : s'.between lo hi = s.between lo hi := by
  unfold St.between; rw [h]

/-- What is shown covers everything left of the cursor. -/
theorem covers (hC : ∀ m : Moji, 0 ≤ m.width C) {vw : Int} {all shown left right : List Moji}
    (hf : FitsIn C vw all shown) (e : all = left ++ right) (hl : columns C left < vw) :
    ∃ more, shown = left ++ more ∧ more <+: right := by
  obtain ⟨rest, e1, h1, h2⟩ := hf
  subst e
  rcases List.append_eq_append_iff.mp e1 with ⟨a, ha, hb⟩ | ⟨a, ha, hb⟩
  · exact ⟨a, ha, ⟨rest, hb.symm⟩⟩
  · cases a with
    | nil =>
      refine ⟨[], by simpa using ha.symm, List.nil_prefix⟩
    | cons m a =>
      have := h2 m (a ++ right) (by simpa using hb)
      have hn : Wide0 C a := fun m _ => hC m
      have := hn.columns
      rw [ha, columns_append] at hl
      have : columns C (m :: a) = m.width C + columns C a := rfl
      omega

/-- What the row looks like after a repaint: the units `shown` from the column behind the prompt on,
then nothing, and the terminal cursor behind the units left of the cursor. -/
structure Displays (C : Cfg) (s : St) (shown : List Moji) (r : Row) : Prop where
  cells : ∀ x, s.topColumn ≤ x → r.cells x = layout C shown s.topColumn x
  col : r.col = s.topColumn + columns C (s.between s.viewStart s.cursor)

/-- Printing the first units again changes nothing. -/
theorem reprint (hC : ∀ m : Moji, 0 ≤ m.width C) {r : Row} {ms more : List Moji} {start : Int} (e : r.col = start)
    (h : ∀ x, start ≤ x → r.cells x = layout C (ms ++ more) start x) (x : Int) (hx : start ≤ x) :
    (r.puts C ms).cells x = layout C (ms ++ more) start x := by
  have hn : ∀ ms : List Moji, Wide0 C ms := fun _ m _ => hC m
  rw [puts_cells (hn ms), e]
  split
  · rename_i hc
    rw [layout_append (hn _) (hn _), if_pos hc.2]
  · exact h x hx

/-- What `repaintWithoutUpdateSuffix` does. -/
theorem repaintNoSuffix_row {E : Env} (hC : ∀ m : Moji, 0 ≤ m.width E.cfg)
    (hl1 : ∀ r, lit E.predictColor.1 r = r) (hl2 : ∀ r, lit E.predictColor.2 r = r)
    {s s' : St} (ha : s.aligned E) (hv : InView E s) (h : repaintNoSuffix E s = .ok s') :
    s'.mojis = s.mojis ∧ (∃ b o, s' = { s with buf := b, out := o }) ∧
    ∃ view pred, FitsIn E.cfg s.viewWidth (s.mojis.drop s.viewStart.toNat) view ∧
      FitsIn E.cfg (s.viewWidth - columns E.cfg view) (s.visibleSuffix E) pred ∧
      Paints E.cfg lit (s.topColumn + s.viewWidth) s s' (Displays E.cfg s (view ++ pred)) := by
  have hn : ∀ ms : List Moji, Wide0 E.cfg ms := fun _ m _ => hC m
  unfold repaintNoSuffix at h
  obtain ⟨⟨n, w⟩, h0, h⟩ := bind_ok.mp h
  obtain ⟨s1, h1, h⟩ := bind_ok.mp h
  obtain ⟨s2, h2, hfin⟩ := bind_ok.mp h
  unfold getView2 at h0
  obtain ⟨⟨n', w'⟩, hg, h0⟩ := bind_ok.mp h0
  obtain ⟨_, _, h0⟩ := bind_ok.mp h0
  cases h0
  unfold getView at hg
  obtain ⟨vcells, hs, hg⟩ := bind_ok.mp hg
  obtain ⟨hs1, hs2, hs3, hs4⟩ := slice_ok hs
  obtain ⟨view, hf, hvl⟩ := viewLoop_fits (C := E.cfg) s.viewWidth vcells 0 0
  rw [pure_ok.mp hg] at hvl
  have hn' : n = view.length := by
    have := congrArg Prod.fst hvl
    simpa using this
  have hw' : w = columns E.cfg view := by
    have := congrArg Prod.snd hvl
    simpa using this
  subst hn' hw'
  have hall : vcells.map Cell.moji = s.mojis.drop s.viewStart.toNat := by
    rw [hs4, between_map, between_end s _ (Int.le_refl _)]
  rw [hall, Int.sub_zero] at hf
  -- the view
  obtain ⟨⟨b1, o1, e1⟩, hm1, ⟨ha1, ha2, ha3⟩, hd1⟩ := puts_row (lit := lit) (s := gotoHead s) ha h1
  have hview : (gotoHead s).between s.viewStart (s.viewStart + view.length) = view := by
    obtain ⟨rest, e, _⟩ := hf
    show s.between s.viewStart (s.viewStart + view.length) = view
    unfold St.between
    have : (s.viewStart + (view.length : Int)).toNat = s.viewStart.toNat + view.length := by omega
    rw [this, List.drop_take, e]
    simp
  replace hd1 : Draws E.cfg lit s s1 (fun r => Row.puts E.cfg { r with col := s.topColumn } view) := by
    rw [show (gotoHead s).viewStart = s.viewStart from rfl, hview] at hd1
    refine (((Draws.refl (s := s)).emit (.gotoCol (s.topColumn + 1))).trans hd1).congr fun r => ?_
    show Row.puts E.cfg { r with col := s.topColumn + 1 - 1 } view = _
    rw [Int.add_sub_cancel]
  have a1 : s1.aligned E := by
    unfold St.aligned
    have : s1.buf.map Cell.moji = s.buf.map Cell.moji := hm1
    rw [this]; exact ha
  -- the prediction
  have hvs : s1.visibleSuffix E = s.visibleSuffix E := by
    have hl : s1.len = s.len := by rw [← mojis_length, ← mojis_length, hm1]; rfl
    unfold St.visibleSuffix
    rw [hl, e1]; rfl
  have hp : ∃ pred, FitsIn E.cfg (s.viewWidth - columns E.cfg view) (s.visibleSuffix E) pred ∧
      (∃ o, s2 = { s1 with out := o }) ∧ Draws E.cfg lit s1 s2 (fun r => r.puts E.cfg pred) := by
    split at h2
    · obtain ⟨s3, h3, h2⟩ := bind_ok.mp h2
      obtain ⟨pred, hf2, ⟨o, e3⟩, hd3⟩ := suffixLoop_draws (lit := lit) h3
      cases h2
      refine ⟨pred, ?_, ⟨_, by rw [e3]; rfl⟩, ?_⟩
      · have : (s1.emit (.lit E.predictColor.1)).visibleSuffix E = s.visibleSuffix E := hvs
        rw [this] at hf2
        have : (s1.emit (.lit E.predictColor.1)).viewWidth = s.viewWidth := by rw [e1]; rfl
        rw [this] at hf2
        exact hf2
      · refine ((((Draws.refl (s := s1)).emit (.lit E.predictColor.1)).trans hd3).emit
          (.lit E.predictColor.2)).congr fun r => ?_
        show lit E.predictColor.2 (Row.puts E.cfg (lit E.predictColor.1 r) pred) = _
        rw [hl1, hl2]
    · rename_i hc
      cases h2
      refine ⟨[], ?_, ⟨_, rfl⟩, Draws.refl⟩
      have : s.visibleSuffix E = [] := by
        rw [← hvs]
        unfold St.visibleSuffix
        by_cases hp : E.predictColor.1 = []
        · rw [if_pos hp]
        · rw [if_neg hp]
          split
          · rfl
          · have : ¬ s1.suffixList.length > 0 := fun h => hc ⟨hp, h⟩
            exact List.eq_nil_of_length_eq_zero (by omega)
      rw [this]
      exact ⟨[], rfl, Or.inl rfl, by intro m tail e; cases e⟩
  obtain ⟨pred, hf2, ⟨o2, e2⟩, hd2⟩ := hp
  have a2 : s2.aligned E := by rw [e2]; exact a1
  have hm2 : s2.mojis = s.mojis := by rw [e2]; exact hm1
  -- the part left of the cursor
  obtain ⟨⟨b3, o3, e3⟩, hm3, ⟨hc1, hc2, hc3⟩, hd3⟩ := puts_row (lit := lit) (s := gotoHead (eraseline s2)) a2 hfin
  have es2 : s2.viewStart = s.viewStart ∧ s2.cursor = s.cursor ∧ s2.topColumn = s.topColumn := by
    rw [e2, e1]; exact ⟨rfl, rfl, rfl⟩
  refine ⟨hm3.trans hm2, ⟨b3, o3, by rw [e3, e2, e1]; rfl⟩, view, pred, hf, hf2, ?_⟩
  have hleft : (gotoHead (eraseline s2)).between (gotoHead (eraseline s2)).viewStart
      (gotoHead (eraseline s2)).cursor = s.between s.viewStart s.cursor := by
    show s2.between s2.viewStart s2.cursor = _
    rw [es2.1, es2.2.1]
    exact between_congr hm2 _ _
  rw [hleft] at hd3
  have hsplit : s.mojis.drop s.viewStart.toNat = s.between s.viewStart s.cursor ++ s.between s.cursor s.len := by
    rw [← between_end s s.len (Int.le_refl _)]
    exact between_split hv.mid hv.high
  obtain ⟨more, ev, _⟩ := covers hC hf hsplit hv.fits
  have hlv : columns E.cfg view ≤ s.viewWidth := by
    obtain ⟨_, _, h1, _⟩ := hf
    rcases h1 with rfl | h1
    · have := (hn (s.between s.viewStart s.cursor)).columns
      have := hv.fits
      simp only [columns]; omega
    · omega
  have hlp : columns E.cfg view + columns E.cfg pred ≤ s.viewWidth := by
    obtain ⟨_, _, h1, _⟩ := hf2
    rcases h1 with rfl | h1
    · simp only [columns]; omega
    · omega
  refine Draws.paints ((((hd1.trans hd2).emit .eraseEol).emit (.gotoCol (s2.topColumn + 1))).trans hd3) ?_
  intro r
  rw [es2.2.2]
  generalize hr1 : ({ r with col := s.topColumn } : Row) = r1
  have hr1c : r1.col = s.topColumn := by rw [← hr1]
  have hr1h : r1.high = r.high := by rw [← hr1]
  rw [← puts_append]
  generalize hr2 : r1.puts E.cfg (view ++ pred) = r2
  have hr2c : r2.col = s.topColumn + columns E.cfg (view ++ pred) := by rw [← hr2, puts_col, hr1c]
  have hr2x : ∀ x, s.topColumn ≤ x → x < s.topColumn + columns E.cfg (view ++ pred) →
      r2.cells x = layout E.cfg (view ++ pred) s.topColumn x := by
    intro x hx1 hx2
    rw [← hr2, puts_cells (hn _), hr1c, if_pos ⟨hx1, hx2⟩]
  have hr2h : r2.high ≤ max r.high (s.topColumn + s.viewWidth) := by
    rw [← hr2]
    apply puts_high (hn _)
    · omega
    · rw [hr1c, columns_append]; omega
  generalize hr3 : Row.receive E.cfg lit (Row.receive E.cfg lit r2 .eraseEol) (.gotoCol (s.topColumn + 1)) = r3
  have hr3c : r3.col = s.topColumn := by
    rw [← hr3]; show s.topColumn + 1 - 1 = _; omega
  have hr3h : r3.high = r2.high := by rw [← hr3]; rfl
  have hr3x : ∀ x, s.topColumn ≤ x → r3.cells x = layout E.cfg (view ++ pred) s.topColumn x := by
    intro x hx
    rw [← hr3]
    show (if x ≥ r2.col then none else r2.cells x) = _
    rw [hr2c]
    split
    · rename_i hc
      rw [layout_outside (hn _) (Or.inr hc)]
    · rename_i hc
      exact hr2x x hx (by omega)
  refine ⟨⟨?_, ?_⟩, ?_⟩
  · intro x hx
    rw [ev, List.append_assoc] at hr3x ⊢
    exact reprint hC hr3c hr3x x hx
  · rw [puts_col, hr3c]
  · apply puts_high (hn _)
    · omega
    · rw [hr3c]
      have := hv.fits
      omega

end Readline
