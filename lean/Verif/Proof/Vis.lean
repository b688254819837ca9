import Verif.Proof.Show
import Verif.Proof.Invariant
/-!
# The row shows the line whenever a key is awaited
-/
namespace Readline
open Spec

variable {C : Cfg} {E : Env} {lit : Bytes → Row → Row} {s s1 s' : St}

theorem St.noTabs_aligned (h : ∀ p, Moji.tab p ∉ s.mojis) : s.aligned E := by
  intro pre p post e
  refine absurd ?_ (h p)
  show _ ∈ s.buf.map Cell.moji
  rw [e]; simp

theorem norm_tab {m : Moji} {p : Int} (h : m.norm = .tab p) : ∃ q, m = .tab q := by
  cases m with
  | tab q => exact ⟨q, rfl⟩
  | _ => cases h

theorem noTabs_same (hs : s'.line = s.line) (h : ∀ p, Moji.tab p ∉ s'.mojis) :
    ∀ p, Moji.tab p ∉ s.mojis := by
  intro p hp
  obtain ⟨c, hc, e⟩ := List.mem_map.mp hp
  have : Moji.tab 0 ∈ s.line := List.mem_map.mpr ⟨c, hc, by rw [e]; rfl⟩
  rw [← hs] at this
  obtain ⟨c', hc', e'⟩ := List.mem_map.mp this
  obtain ⟨q, hq⟩ := norm_tab e'
  exact h q (List.mem_map.mpr ⟨c', hc', hq⟩)

/-- What is written between two states prints no unit beyond column `lim`. -/
def Silent (C : Cfg) (lit : Bytes → Row → Row) (s s1 : St) : Prop :=
  ∃ t, s1.out = s.out ++ t ∧ ∀ r : Row, (Row.run C lit r t).high = r.high

namespace Silent
theorem refl : Silent C lit s s := ⟨[], by simp, fun _ => rfl⟩
theorem of_out (h : Silent C lit s s1) (e : s'.out = s1.out := by rfl) : Silent C lit s s' := by
  obtain ⟨t, e1, r⟩ := h
  exact ⟨t, e.trans e1, r⟩
theorem emit (h : Silent C lit s s1) (t : Tok)
    (ht : ∀ r : Row, (Row.receive C lit r t).high = r.high) : Silent C lit s (s1.emit t) := by
  obtain ⟨u, e, hu⟩ := h
  refine ⟨u ++ [t], ?_, fun r => ?_⟩
  · show s1.out ++ [t] = _
    rw [e, List.append_assoc]
  · rw [run_append]
    exact (ht _).trans (hu r)
end Silent

/-- The row shows `s'` if it showed `s`, and nothing was printed beyond the view. -/
def Keeps (E : Env) (lit : Bytes → Row → Row) (s s' : St) : Prop :=
  ∃ t, s'.out = s.out ++ t ∧ ∀ r, Shows E s r → Shows E s' (Row.run E.cfg lit r t) ∧
    (Row.run E.cfg lit r t).high ≤ max r.high (s'.termWidth - 3)

/-- The row shows `s'` whatever it showed before. -/
abbrev Repaints (E : Env) (lit : Bytes → Row → Row) (s s' : St) : Prop :=
  Paints E.cfg lit (s'.termWidth - 3) s s' (Shows E s')

theorem Paints.keeps (h : Repaints E lit s s') : Keeps E lit s s' := by
  obtain ⟨t, e, hr⟩ := h
  exact ⟨t, e, fun r _ => hr r⟩

theorem Paints.silent {lim : Int} {P : Row → Prop} (h : Paints C lit lim s1 s' P)
    (hs : Silent C lit s s1) : Paints C lit lim s s' P := by
  obtain ⟨t1, e1, h1⟩ := hs
  obtain ⟨t2, e2, h2⟩ := h
  refine ⟨t1 ++ t2, by rw [e2, e1, List.append_assoc], fun r => ?_⟩
  rw [run_append]
  refine ⟨(h2 _).1, ?_⟩
  have := (h2 (Row.run C lit r t1)).2
  rw [h1] at this
  exact this

/-- The settings of the terminal under which the row is understood: printed units do not move
backwards, the colours of the prediction and the bell leave the row alone, and what other literal
output (the prompt) prints is not counted. -/
structure Sane (E : Env) (lit : Bytes → Row → Row) : Prop where
  width : ∀ m : Moji, 0 ≤ m.width E.cfg
  color1 : ∀ r, lit E.predictColor.1 r = r
  color2 : ∀ r, lit E.predictColor.2 r = r
  bell : ∀ r, lit [7] r = r
  nothing : ∀ r, lit [] r = r
  high : ∀ b r, (lit b r).high = r.high

theorem Sane.wide (hS : Sane E lit) (ms : List Moji) : Wide0 E.cfg ms := fun m _ => hS.width m

theorem St.lim (s : St) : s.topColumn + s.viewWidth = s.termWidth - 3 := by
  unfold St.viewWidth; omega

theorem Spec.Shows.inView (hS : Sane E lit) {r : Row} (h : Shows E s r) : InView E s := by
  obtain ⟨right, pred, _, h2, _⟩ := h.cells
  refine ⟨h.low, h.mid, h.high, ?_⟩
  rw [List.append_assoc, columns_append] at h2
  have := (hS.wide (right ++ pred)).columns
  omega

/-- `repaintWithoutUpdateSuffix` on a line without tabs shows the line. -/
theorem repaintNoSuffix_paints (hS : Sane E lit) (ha : s1.aligned E) (hv : InView E s1)
    (h : repaintNoSuffix E s1 = .ok s') : s'.mojis = s1.mojis ∧ Repaints E lit s1 s' := by
  obtain ⟨hm, ⟨b, o, e⟩, view, pred, hf1, hf2, hp⟩ :=
    repaintNoSuffix_row hS.width hS.color1 hS.color2 ha hv h
  refine ⟨hm, ?_⟩
  have hlen : s'.len = s1.len := by rw [← mojis_length, ← mojis_length, hm]
  have hbt : ∀ lo hi, s'.between lo hi = s1.between lo hi := fun lo hi => between_congr hm lo hi
  have e1 : s'.viewStart = s1.viewStart := by rw [e]
  have e2 : s'.cursor = s1.cursor := by rw [e]
  have e3 : s'.topColumn = s1.topColumn := by rw [e]
  have e4 : s'.viewWidth = s1.viewWidth := by rw [e]; rfl
  have e5 : s'.termWidth = s1.termWidth := by rw [e]
  unfold Repaints
  rw [e5, ← St.lim s1]
  refine hp.imp fun r hr => ?_
  have hsplit : s1.mojis.drop s1.viewStart.toNat =
      s1.between s1.viewStart s1.cursor ++ s1.between s1.cursor s1.len := by
    rw [← between_end s1 s1.len (Int.le_refl _)]
    exact between_split hv.mid hv.high
  obtain ⟨right, ev, hpre⟩ := covers hS.width hf1 hsplit hv.fits
  refine ⟨by rw [e1]; exact hv.low, by rw [e1, e2]; exact hv.mid, by rw [e2, hlen]; exact hv.high,
    by rw [e1, e2, e3, hbt]; exact hr.col, right, pred, ?_⟩
  rw [e1, e2, e3, e4, hlen, hbt, hbt, ← ev]
  have hvw : columns E.cfg view < s1.viewWidth := by
    obtain ⟨_, _, h1, _⟩ := hf1
    rcases h1 with rfl | h1
    · have := (hS.wide (s1.between s1.viewStart s1.cursor)).columns
      have := hv.fits
      simp only [columns]; omega
    · exact h1
  have hpw : columns E.cfg (view ++ pred) < s1.viewWidth := by
    rw [columns_append]
    obtain ⟨_, _, h1, _⟩ := hf2
    rcases h1 with rfl | h1
    · simp only [columns]; omega
    · omega
  have hpn : s1.visibleSuffix E = [] → pred = [] := by
    intro hn
    obtain ⟨rest, h0, _⟩ := hf2
    rw [hn] at h0
    exact (List.append_eq_nil_iff.mp h0.symm).1
  refine ⟨hpre, hpw, hr.cells, ?_, ?_, ?_⟩
  · by_cases hc : s1.cursor = s1.len
    · by_cases hp : E.predictColor.1 = []
      · left
        apply hpn
        unfold St.visibleSuffix
        rw [if_pos hp]
      · refine Or.inr ⟨hc, ?_⟩
        obtain ⟨rest, h0, _⟩ := hf2
        have hsx : s1.visibleSuffix E = s'.suffixList := by
          unfold St.visibleSuffix
          rw [if_neg hp, if_neg (by simpa using hc), e]
          rfl
        exact ⟨rest, by rw [← hsx, h0]⟩
    · left
      apply hpn
      unfold St.visibleSuffix
      rw [if_pos hc]
      split <;> rfl
  · intro hc
    apply hpn
    unfold St.visibleSuffix
    rw [if_pos hc]
  · intro _ m tail em
    obtain ⟨rest, h0, _, h2⟩ := hf1
    rw [hsplit, em, ev, List.append_assoc] at h0
    have := List.append_cancel_left (List.append_cancel_left h0)
    exact h2 m tail this.symm

theorem InView.congr (hv : InView E s) (h1 : s'.buf = s.buf := by rfl)
    (h2 : s'.viewStart = s.viewStart := by rfl) (h3 : s'.cursor = s.cursor := by rfl)
    (h4 : s'.viewWidth = s.viewWidth := by rfl) : InView E s' := by
  have hb : s'.mojis = s.mojis := by unfold St.mojis; rw [h1]
  refine ⟨by rw [h2]; exact hv.low, by rw [h2, h3]; exact hv.mid, ?_, ?_⟩
  · rw [h3]; unfold St.len; rw [h1]; exact hv.high
  · rw [h2, h3, h4, between_congr hb]; exact hv.fits

theorem updateSuffix_eq (E : Env) (s : St) : ∃ x, updateSuffix E s = { s with suffix := x } := by
  unfold updateSuffix
  split
  · exact ⟨s.suffix, rfl⟩
  · split
    · exact ⟨_, rfl⟩
    · exact ⟨_, rfl⟩

theorem repaintNoSuffix_mojis (ha : s1.aligned E) (h : repaintNoSuffix E s1 = .ok s') :
    s'.mojis = s1.mojis ∧ ∃ b o, s' = { s1 with buf := b, out := o } := by
  unfold repaintNoSuffix at h
  obtain ⟨⟨n, w⟩, h0, h⟩ := bind_ok.mp h
  obtain ⟨s2, h1, h⟩ := bind_ok.mp h
  obtain ⟨s3, h2, h⟩ := bind_ok.mp h
  obtain ⟨⟨b2, o2, e2⟩, hm2, _, _⟩ := puts_row (lit := fun _ r => r) (s := gotoHead s1) ha h1
  have h3 : ∃ o, s3 = { s2 with out := o } := by
    split at h2
    · obtain ⟨s4, h4, h2⟩ := bind_ok.mp h2
      obtain ⟨_, _, ⟨o, e⟩, _⟩ := suffixLoop_draws (lit := fun _ r => r) h4
      cases h2
      exact ⟨_, by rw [e]; rfl⟩
    · cases h2; exact ⟨_, rfl⟩
  obtain ⟨o3, e3⟩ := h3
  have hm3 : s3.mojis = s1.mojis := by rw [e3]; exact hm2
  have a3 : s3.aligned E := by
    have e : s3.buf.map Cell.moji = s1.buf.map Cell.moji := hm3
    unfold St.aligned; rw [e]; exact ha
  obtain ⟨⟨b4, o4, e4⟩, hm4, _, _⟩ := puts_row (lit := fun _ r => r) (s := gotoHead (eraseline s3)) a3 h
  exact ⟨hm4.trans hm3, b4, o4, by rw [e4, e3, e2]; rfl⟩

/-- A repaint of a line without tabs whose cursor is in the view. -/
theorem repaint_paints (hS : Sane E lit) (hq : Silent E.cfg lit s s1) (h : repaint E s1 = .ok s')
    (hT : ∀ p, Moji.tab p ∉ s'.mojis)
    (hv : s'.mojis = s1.mojis → s'.viewWidth = s1.viewWidth → InView E s1) :
    Repaints E lit s s' := by
  obtain ⟨x, e⟩ := updateSuffix_eq E s1
  have hsame := (repaint_same h).1
  have hnt : ∀ p, Moji.tab p ∉ s1.mojis := by
    have := noTabs_same hsame.1 hT
    rw [e] at this
    exact this
  have ha' : (updateSuffix E s1).aligned E := by
    rw [e]; exact St.noTabs_aligned (E := E) hnt
  obtain ⟨hm, b, o, e'⟩ := repaintNoSuffix_mojis ha' h
  have hm' : s'.mojis = s1.mojis := by rw [hm, e]; rfl
  have hw : s'.viewWidth = s1.viewWidth := by rw [e', e]; rfl
  have hv' : InView E (updateSuffix E s1) := by rw [e]; exact (hv hm' hw).congr
  have hp := (repaintNoSuffix_paints hS ha' hv' h).2
  exact Paints.silent hp (hq.of_out (by rw [e]))

/-! ## Scrolling -/

theorem columns_between_le (hS : Sane E lit) {lo mid hi : Int} (h1 : lo ≤ mid) (h2 : mid ≤ hi) :
    columns E.cfg (s.between lo mid) ≤ columns E.cfg (s.between lo hi) := by
  rw [between_split h1 h2, columns_append]
  have := (hS.wide (s.between mid hi)).columns
  omega

theorem between_empty (s : St) {lo hi : Int} (h : hi ≤ lo) : s.between lo hi = [] := by
  unfold St.between
  apply List.drop_eq_nil_of_le
  rw [List.length_take]; omega

theorem between_one {s : St} {i : Nat} {m : Moji} (h : s.mojis[i]? = some m) :
    s.between i (i + 1) = [m] := by
  unfold St.between
  have hi : i < s.mojis.length := by
    rw [List.getElem?_eq_some_iff] at h; exact h.1
  have : ((i : Int) + 1).toNat = i + 1 := by omega
  rw [this, Int.toNat_natCast, List.drop_take, Nat.add_sub_cancel_left]
  rw [List.drop_eq_getElem_cons hi, List.take_succ_cons, List.take_zero]
  rw [List.getElem?_eq_getElem hi] at h
  injection h with h
  rw [h]

theorem mojis_get (s : St) (i : Nat) : s.mojis[i]? = (s.buf[i]?).map Cell.moji := by
  simp [St.mojis]

/-- The inner loop of `ResetViewStart`: it removes units from the left until the rest fits. -/
theorem resetInner_ok {C : Cfg} (s : St) (vw : Int) (h0 : 0 < vw) (i : Nat)
    (hn : ∀ m ∈ s.mojis, m.width C < vw) (hi : i < s.buf.length) :
    ∀ (fuel vs : Nat) (w : Int), vs ≤ i → i < fuel + vs → w = columns C (s.between vs (i + 1)) →
    ∃ vs' w', resetInner C s.buf vw fuel vs w = (vs', some w') ∧ vs' ≤ i ∧
      w' = columns C (s.between vs' (i + 1)) ∧ w' < vw := by
  intro fuel
  induction fuel with
  | zero => intro vs w h1 h2; omega
  | succ fuel ih =>
    intro vs w h1 h2 hw
    rw [resetInner]
    split
    · rename_i hge
      have hvs : vs < s.buf.length := by omega
      rw [List.getElem?_eq_getElem hvs]
      have hg : s.mojis[vs]? = some s.buf[vs].moji := by
        rw [mojis_get, List.getElem?_eq_getElem hvs]; rfl
      have hsp : s.between vs (i + 1) = s.buf[vs].moji :: s.between (vs + 1 : Nat) (i + 1) := by
        rw [between_split (mid := (vs : Int) + 1) (by omega) (by omega), between_one hg]
        rfl
      have hc : columns C (s.between vs (i + 1)) =
          s.buf[vs].moji.width C + columns C (s.between (vs + 1 : Nat) (i + 1)) := by
        rw [hsp]; rfl
      by_cases he : vs = i
      · exfalso
        subst he
        rw [hw, between_one hg] at hge
        have := hn s.buf[vs].moji (List.mem_of_getElem? hg)
        simp only [columns] at hge
        omega
      · exact ih (vs + 1) _ (by omega) (by omega) (by rw [hw, hc]; omega)
    · rename_i hlt
      exact ⟨vs, w, rfl, h1, hw, by omega⟩

theorem resetOuter_ok (hS : Sane E lit) (s : St) (h0 : 0 < s.viewWidth)
    (hn : ∀ m ∈ s.mojis, m.width E.cfg < s.viewWidth) (cursor : Int) (hcur : cursor ≤ s.len) :
    ∀ (cs : List Cell) (i vs : Nat) (w : Int), cs = s.buf.drop i → vs ≤ i → (i : Int) ≤ cursor + 1 →
      w = columns E.cfg (s.between vs i) → w < s.viewWidth → (vs : Int) ≤ cursor →
      ∃ vs' : Nat, resetOuter E.cfg s.buf s.viewWidth cursor cs i vs w = vs' ∧ (vs' : Int) ≤ cursor ∧
        columns E.cfg (s.between vs' cursor) < s.viewWidth := by
  intro cs
  induction cs with
  | nil =>
    intro i vs w hcs h1 h2 hw hlt hvc
    refine ⟨vs, rfl, hvc, ?_⟩
    have hlen : s.buf.length ≤ i := List.drop_eq_nil_iff.mp hcs.symm
    unfold St.len at hcur
    have := columns_between_le (s := s) hS hvc (hi := (i : Int)) (by omega)
    omega
  | cons c cs ih =>
    intro i vs w hcs h1 h2 hw hlt hvc
    rw [resetOuter]
    split
    · rename_i hic
      have hi : i < s.buf.length := by
        apply Classical.byContradiction
        intro hcon
        rw [List.drop_eq_nil_of_le (by omega)] at hcs
        cases hcs
      have hce : s.buf[i] = c ∧ s.buf.drop (i + 1) = cs := by
        rw [List.drop_eq_getElem_cons hi] at hcs
        injection hcs with a b
        exact ⟨a.symm, b.symm⟩
      have hg : s.mojis[i]? = some c.moji := by
        rw [mojis_get, List.getElem?_eq_getElem hi, hce.1]; rfl
      obtain ⟨vs1, w1, e1, h3, h4, h5⟩ := resetInner_ok (C := E.cfg) s s.viewWidth h0 i hn hi
        (s.buf.length + 1) vs (w + c.moji.width E.cfg) h1 (by omega) (by
          rw [between_split (mid := (i : Int)) (by omega) (by omega), columns_append, between_one hg, hw]
          simp [columns])
      rw [e1]
      dsimp only
      have : ((i : Int) + 1) = ((i + 1 : Nat) : Int) := by omega
      rw [this]
      exact ih (i + 1) vs1 w1 hce.2.symm (by omega) (by omega) (by rw [h4, this]) h5 (by omega)
    · rename_i hic
      refine ⟨vs, rfl, hvc, ?_⟩
      have : cursor ≤ (i : Int) := by omega
      by_cases hv : (vs : Int) ≤ cursor
      · have := columns_between_le (s := s) hS hv this
        omega
      · rw [between_empty s (by omega)]
        exact h0

/-- After `ResetViewStart` the cursor is in the view. -/
theorem reset_inView (hS : Sane E lit) (h0 : 0 < s.viewWidth)
    (hn : ∀ m ∈ s.mojis, m.width E.cfg < s.viewWidth) (hc0 : 0 ≤ s.cursor) (hc1 : s.cursor ≤ s.len) :
    InView E (resetViewStart E s) := by
  obtain ⟨vs, e, h1, h2⟩ := resetOuter_ok hS s h0 hn s.cursor hc1 s.buf 0 0 0 rfl (Nat.le_refl _)
    (by omega) (by simp [St.between, columns]) h0 hc0
  have : (resetViewStart E s).viewStart = vs := by
    show ((resetOuter E.cfg s.buf s.viewWidth s.cursor s.buf 0 0 0 : Nat) : Int) = vs
    rw [← e]; rfl
  refine ⟨by rw [this]; omega, by rw [this]; exact h1, hc1, ?_⟩
  rw [this]
  exact h2

end Readline
