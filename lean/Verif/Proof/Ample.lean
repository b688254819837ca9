import Verif.Proof.VisSession
import Verif.Spec.Ample
/-!
# Lines that fit are shown entirely, tabs included
-/
namespace Readline
open Spec

variable {C : Cfg} {E : Env} {lit : Bytes → Row → Row} {s s1 s' : St} {w : World}

/-! ## Widths -/

theorem width_most (C : Cfg) (m : Moji) : m.width C ≤ most C m := by
  cases m with
  | tab p =>
    show 4 - Int.tmod p 4 ≤ 7
    have h1 := Int.tmod_lt_of_pos (-p) (b := 4) (by decide)
    rw [Int.neg_tmod] at h1
    omega
  | _ => exact Int.le_refl _

theorem columns_most (C : Cfg) (ms : List Moji) : columns C ms ≤ mostOf C ms := by
  induction ms with
  | nil => exact Int.le_refl _
  | cons m ms ih =>
    have := width_most C m
    simp only [columns, mostOf]
    omega

theorem mostOf_append (C : Cfg) (a c : List Moji) : mostOf C (a ++ c) = mostOf C a + mostOf C c := by
  induction a with
  | nil => simp [mostOf]
  | cons m a ih => simp only [List.cons_append, mostOf, ih]; omega

theorem most_nonneg (hS : Sane E lit) (m : Moji) : 0 ≤ most E.cfg m := by
  have := hS.width m
  have := width_most E.cfg m
  omega

theorem mostOf_nonneg (hS : Sane E lit) (ms : List Moji) : 0 ≤ mostOf E.cfg ms := by
  have := (hS.wide ms).columns
  have := columns_most E.cfg ms
  omega

theorem mostOf_sub (hS : Sane E lit) {a c : List Moji} (h : a.Sublist c) : mostOf E.cfg a ≤ mostOf E.cfg c := by
  induction h with
  | slnil => exact Int.le_refl _
  | cons m _ ih => have := most_nonneg hS m; simp only [mostOf]; omega
  | cons_cons m _ ih => simp only [mostOf]; omega

theorem between_sub (s : St) (lo hi : Int) : (s.between lo hi).Sublist s.mojis :=
  (List.drop_sublist _ _).trans (List.take_sublist _ _)

theorem Spec.Ample.between (hS : Sane E lit) (h : Ample E s) (lo hi : Int) :
    columns E.cfg (s.between lo hi) < s.viewWidth := by
  have h1 := columns_most E.cfg (s.between lo hi)
  have h2 := mostOf_sub hS (between_sub s lo hi)
  have h3 : mostOf E.cfg s.mojis < s.viewWidth := h
  omega

theorem Spec.Ample.view (hS : Sane E lit) (h : Ample E s) : 0 < s.viewWidth := by
  have h2 := mostOf_nonneg hS s.mojis
  have h3 : mostOf E.cfg s.mojis < s.viewWidth := h
  omega

theorem Spec.Ample.sub (hS : Sane E lit) (h : Ample E s) (hm : s'.mojis.Sublist s.mojis)
    (hw : s'.viewWidth = s.viewWidth) : Ample E s' := by
  have h2 := mostOf_sub hS hm
  have h3 : mostOf E.cfg s.mojis < s.viewWidth := h
  show mostOf E.cfg s'.mojis < s'.viewWidth
  omega

theorem Spec.Ample.congr (h : Ample E s) (hm : mostOf E.cfg s'.mojis = mostOf E.cfg s.mojis)
    (hw : s'.viewWidth = s.viewWidth) : Ample E s' := by
  show mostOf E.cfg s'.mojis < s'.viewWidth
  rw [hm, hw]; exact h

/-- Refreshing the columns of the tabs leaves the tabs tabs. -/
theorem refreshLoop_most (C : Cfg) (K : Coloring) (cursor : Int) (σ : K.σ) (i p : Int) (cs : List Cell) :
    mostOf C ((refreshLoop C K cursor σ i p cs).map Cell.moji) = mostOf C (cs.map Cell.moji) := by
  induction cs generalizing σ i p with
  | nil => rfl
  | cons c cs ih =>
    rw [refreshLoop]
    dsimp only
    generalize (if i = cursor then (K.next σ cursorDummyRune).1 else σ) = σ1
    have hm : most C (refreshCell C K σ1 p c).2.2.moji = most C c.moji := by
      unfold refreshCell
      split
      · rename_i q e; rw [e]; rfl
      · split <;> rfl
    simp only [List.map_cons, mostOf, hm, ih]

theorem refreshed_most (E : Env) (s : St) :
    mostOf E.cfg ((refreshed E s).map Cell.moji) = mostOf E.cfg s.mojis := refreshLoop_most _ _ _ _ _ _ _

theorem puts_most {lo hi : Int} (h : puts E s lo hi = .ok s') :
    mostOf E.cfg s'.mojis = mostOf E.cfg s.mojis ∧ s'.len = s.len := by
  obtain ⟨o, e⟩ := (puts_draws (lit := fun _ r => r) h).1
  constructor
  · rw [← refreshed_most E s, e]; rfl
  · rw [e]; show (((refreshed E s).length : Nat) : Int) = s.len
    rw [refreshed_length]; rfl

/-- Printing after the columns of the tabs have been refreshed. -/
theorem puts_fresh {lo hi : Int} (h : puts E s lo hi = .ok s') :
    (∃ b o, s' = { s with buf := b, out := o }) ∧ s'.aligned E ∧ (0 ≤ lo ∧ lo ≤ hi ∧ hi ≤ s.len) ∧
    Draws E.cfg lit s s' (fun r => r.puts E.cfg (s'.between lo hi)) := by
  obtain ⟨⟨o, e⟩, hd⟩ := puts_draws (lit := lit) h
  refine ⟨⟨_, _, e⟩, puts_aligned h, ?_, ?_⟩
  · unfold puts at h
    obtain ⟨x, h0, h⟩ := bind_ok.mp h
    have := slice_ok h0
    exact ⟨this.1, this.2.1, this.2.2.1⟩
  · exact hd.congr fun r => by rw [between_map]

theorem fitsIn_all (hC : ∀ m : Moji, 0 ≤ m.width C) {vw : Int} {all shown : List Moji} (h : FitsIn C vw all shown)
    (ha : columns C all < vw) : shown = all := by
  obtain ⟨rest, e, _, h2⟩ := h
  cases rest with
  | nil => rw [e, List.append_nil]
  | cons m tail =>
    exfalso
    have := h2 m tail rfl
    rw [e, columns_append] at ha
    have hn : Wide0 C tail := fun m _ => hC m
    have := hn.columns
    simp only [columns] at ha
    omega

theorem between_zero (s : St) (hi : Int) : s.between 0 hi = s.mojis.take hi.toNat := by
  unfold St.between; simp

theorem between_all (s : St) {hi : Int} (h : s.len ≤ hi) : s.between 0 hi = s.mojis := by
  rw [between_end s hi h]; simp

theorem getView_all (hS : Sane E lit) (hA : Ample E s) (hv : s.viewStart = 0) {n : Nat} {w : Int}
    (h : getView2 E s = .ok (n, w)) : (n : Int) = s.len ∧ s.cursor ≤ s.len ∧ 0 ≤ s.cursor := by
  unfold getView2 at h
  obtain ⟨⟨n', w'⟩, hg, h⟩ := bind_ok.mp h
  obtain ⟨x, hx, h⟩ := bind_ok.mp h
  cases h
  unfold getView at hg
  obtain ⟨vcells, hs, hg⟩ := bind_ok.mp hg
  obtain ⟨hs1, hs2, hs3, hs4⟩ := slice_ok hs
  obtain ⟨view, hf, hvl⟩ := viewLoop_fits (C := E.cfg) s.viewWidth vcells 0 0
  rw [pure_ok.mp hg] at hvl
  have hn' : n = view.length := by
    have := congrArg Prod.fst hvl
    simpa using this
  have hall : vcells.map Cell.moji = s.mojis := by
    rw [hs4, between_map, hv, between_all s (Int.le_refl _)]
  rw [hall, Int.sub_zero] at hf
  have := fitsIn_all hS.width hf (by
    have := hA.between hS 0 s.len
    rwa [between_all s (Int.le_refl _)] at this)
  obtain ⟨k1, k2, k3, _⟩ := slice_ok hx
  refine ⟨by rw [hn', this, mojis_length], k3, by omega⟩

/-- The row shows the whole line whatever it showed before. -/
abbrev Lays (E : Env) (lit : Bytes → Row → Row) (s s' : St) : Prop :=
  Paints E.cfg lit (s'.termWidth - 3) s s' (Entire E s')

/-- The row shows the whole line if it did before. -/
def Upholds (E : Env) (lit : Bytes → Row → Row) (s s' : St) : Prop :=
  ∃ t, s'.out = s.out ++ t ∧ ∀ r, Entire E s r → Entire E s' (Row.run E.cfg lit r t) ∧
    (Row.run E.cfg lit r t).high ≤ max r.high (s'.termWidth - 3)

theorem Paints.upholds (h : Lays E lit s s') : Upholds E lit s s' := by
  obtain ⟨t, e, hr⟩ := h
  exact ⟨t, e, fun r _ => hr r⟩

/-- `repaintWithoutUpdateSuffix` of a line that fits. -/
theorem repaintNoSuffix_lays (hS : Sane E lit) (hp : E.predictColor.1 = []) (hv : s1.viewStart = 0)
    (hA : Ample E s1) (h : repaintNoSuffix E s1 = .ok s') :
    mostOf E.cfg s'.mojis = mostOf E.cfg s1.mojis ∧ Lays E lit s1 s' := by
  have hn := hS.wide
  unfold repaintNoSuffix at h
  obtain ⟨⟨n, w⟩, h0, h⟩ := bind_ok.mp h
  obtain ⟨s2, h1, h⟩ := bind_ok.mp h
  obtain ⟨s3, h2, hfin⟩ := bind_ok.mp h
  obtain ⟨hlen, hc1, hc0⟩ := getView_all hS hA hv h0
  rw [if_neg (fun hc => hc.1 hp)] at h2
  cases h2
  obtain ⟨⟨b2, o2, e2⟩, a2, _, hd2⟩ := puts_fresh (lit := lit) h1
  obtain ⟨m2, l2⟩ := puts_most h1
  obtain ⟨⟨b4, o4, e4⟩, hm4, _, hd4⟩ := puts_row (lit := lit) (s := gotoHead (eraseline s2)) a2 hfin
  have f2 : s2.viewStart = 0 ∧ s2.cursor = s1.cursor ∧ s2.topColumn = s1.topColumn ∧ s2.termWidth = s1.termWidth := by
    rw [e2]; exact ⟨hv, rfl, rfl, rfl⟩
  have f4 : s'.viewStart = 0 ∧ s'.cursor = s1.cursor ∧ s'.topColumn = s1.topColumn ∧ s'.termWidth = s1.termWidth := by
    rw [e4]; exact f2
  replace hm4 : s'.mojis = s2.mojis := hm4
  replace l2 : s2.len = s1.len := l2
  replace m2 : mostOf E.cfg s2.mojis = mostOf E.cfg s1.mojis := m2
  have hl' : s'.len = s1.len := by rw [← l2, ← mojis_length, ← mojis_length, hm4]
  have hA2 : Ample E s2 := hA.congr m2 (by unfold St.viewWidth; rw [f2.2.2.1, f2.2.2.2])
  refine ⟨by rw [hm4, m2], ?_⟩
  have hall : s2.between (gotoHead s1).viewStart ((gotoHead s1).viewStart + n) = s2.mojis := by
    show s2.between s1.viewStart (s1.viewStart + n) = _
    rw [hv, between_all s2 (by omega)]
  rw [hall] at hd2
  have hleft : (gotoHead (eraseline s2)).between (gotoHead (eraseline s2)).viewStart
      (gotoHead (eraseline s2)).cursor = s2.between 0 s1.cursor := by
    show s2.between s2.viewStart s2.cursor = _
    rw [f2.1, f2.2.1]
  rw [hleft] at hd4
  refine Draws.paints ((((((Draws.refl (s := s1)).emit (.gotoCol (s1.topColumn + 1))).trans hd2).emit .eraseEol).emit
    (.gotoCol (s2.topColumn + 1))).trans hd4) ?_
  intro r
  rw [f2.2.2.1]
  show Entire E s' (Row.puts E.cfg (Row.receive E.cfg lit (Row.receive E.cfg lit (Row.puts E.cfg
    { r with col := s1.topColumn + 1 - 1 } s2.mojis) .eraseEol) (.gotoCol (s1.topColumn + 1))) _) ∧
    (Row.puts E.cfg (Row.receive E.cfg lit (Row.receive E.cfg lit (Row.puts E.cfg
    { r with col := s1.topColumn + 1 - 1 } s2.mojis) .eraseEol) (.gotoCol (s1.topColumn + 1))) _).high ≤ _
  rw [Int.add_sub_cancel]
  have hlim := St.lim s1
  have hvw : s2.viewWidth = s1.viewWidth := by unfold St.viewWidth; rw [f2.2.2.1, f2.2.2.2]
  have hb1 := hA2.between hS 0 s2.len
  rw [between_all s2 (Int.le_refl _), hvw] at hb1
  have hb2 := hA2.between hS 0 s1.cursor
  rw [hvw] at hb2
  obtain ⟨k1, k2⟩ := printErase (lit := lit) hS.width (r := { r with col := s1.topColumn }) (start := s1.topColumn)
    (a := []) (c := s2.mojis) (by simp [columns]) (by intro x h1 h2; simp only [columns] at h2; omega)
  have k3 := puts_high (hn s2.mojis) { r with col := s1.topColumn } (lim := max r.high (s1.termWidth - 3))
    (by show r.high ≤ _; omega) (by show s1.topColumn + _ ≤ _; omega)
  rw [List.nil_append] at k1 k2
  generalize Row.puts E.cfg { r with col := s1.topColumn } s2.mojis = r2 at k1 k2 k3
  have hsp : s2.mojis = s2.between 0 s1.cursor ++ s2.between s1.cursor s2.len := by
    rw [← between_split hc0 (by omega), between_all s2 (Int.le_refl _)]
  have hr3 : (Row.receive E.cfg lit (Row.receive E.cfg lit r2 .eraseEol) (.gotoCol (s1.topColumn + 1))).col
      = s1.topColumn := by
    show s1.topColumn + 1 - 1 = _; omega
  refine ⟨⟨f4.1, by rw [f4.2.1]; exact hc0, by rw [f4.2.1, hl']; exact hc1, ?_, ?_⟩, ?_⟩
  · rw [puts_col, hr3, f4.2.2.1, f4.2.1, between_congr hm4]
  · rw [f4.2.2.1, hm4]
    intro x hx
    rw [hsp]
    apply reprint hS.width hr3 _ x hx
    intro y hy
    rw [← hsp]
    exact k1 y hy
  · rw [f4.2.2.2]
    apply puts_high (hn _)
    · exact k3
    · rw [hr3]; omega

theorem repaint_most (h : repaint E s1 = .ok s') :
    mostOf E.cfg s'.mojis = mostOf E.cfg s1.mojis ∧ s'.viewWidth = s1.viewWidth := by
  obtain ⟨_, _, f3, f4, _⟩ := repaint_fields h
  refine ⟨?_, viewWidth_eq f3 f4⟩
  obtain ⟨x, e⟩ := updateSuffix_eq E s1
  unfold repaint repaintNoSuffix at h
  obtain ⟨⟨n, w⟩, h0, h⟩ := bind_ok.mp h
  obtain ⟨s2, h1, h⟩ := bind_ok.mp h
  obtain ⟨s3, h2, hfin⟩ := bind_ok.mp h
  have m1 := (puts_most h1).1
  have m3 := (puts_most hfin).1
  have h3 : s3.mojis = s2.mojis := by
    split at h2
    · obtain ⟨s4, h4, h2⟩ := bind_ok.mp h2
      obtain ⟨_, _, ⟨o, e⟩, _⟩ := suffixLoop_draws (lit := fun _ r => r) h4
      cases h2
      rw [e]; rfl
    · cases h2; rfl
  rw [m3]
  show mostOf E.cfg s3.mojis = _
  rw [h3, m1, e]
  rfl

/-- A repaint of a line that fits. -/
theorem repaint_lays (hS : Sane E lit) (hp : E.predictColor.1 = []) (hq : Silent E.cfg lit s s1)
    (h : repaint E s1 = .ok s') (hA : Ample E s') (hv : s1.viewStart = 0) : Lays E lit s s' := by
  obtain ⟨m, hw⟩ := repaint_most h
  have hA1 : Ample E s1 := hA.congr m.symm hw.symm
  obtain ⟨x, e⟩ := updateSuffix_eq E s1
  have hA2 : Ample E (updateSuffix E s1) := by rw [e]; exact hA1
  have := (repaintNoSuffix_lays (lit := lit) hS hp (by rw [e]; exact hv) hA2 h).2
  exact Paints.silent this (hq.of_out (by rw [e]))

/-! ## `ResetViewStart` -/

theorem resetOuter_zero (hS : Sane E lit) (buf : List Cell) (vw cursor : Int) :
    ∀ (cs : List Cell) (i w : Int), w + mojisWidth E.cfg (cs.map Cell.moji) < vw →
      resetOuter E.cfg buf vw cursor cs i 0 w = 0 := by
  intro cs
  induction cs with
  | nil => intro i w _; rfl
  | cons c cs ih =>
    intro i w h
    rw [List.map_cons, ← columns_eq] at h
    simp only [columns] at h
    have := (hS.wide (cs.map Cell.moji)).columns
    rw [resetOuter]
    split
    · rw [resetInner, if_neg (by omega)]
      exact ih _ _ (by rw [← columns_eq]; omega)
    · rfl

theorem reset_zero (hS : Sane E lit) (hA : Ample E s) : (resetViewStart E s).viewStart = 0 := by
  show ((resetOuter E.cfg s.buf s.viewWidth s.cursor s.buf 0 0 0 : Nat) : Int) = 0
  rw [resetOuter_zero hS s.buf s.viewWidth s.cursor s.buf 0 0]
  · rfl
  · rw [← columns_eq, Int.zero_add]
    have := hA.between hS 0 s.len
    rwa [between_all s (Int.le_refl _)] at this

theorem reset_lays (hS : Sane E lit) (hp : E.predictColor.1 = []) (hq : Silent E.cfg lit s s1)
    (h : repaint E (resetViewStart E s1) = .ok s') (hA : Ample E s') : Lays E lit s s' := by
  obtain ⟨m, hw⟩ := repaint_most h
  have hA1 : Ample E s1 := hA.congr (s' := s1) m.symm hw.symm
  exact repaint_lays hS hp (hq.of_out) h hA (reset_zero hS hA1)

end Readline
