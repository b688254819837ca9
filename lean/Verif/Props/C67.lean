import Verif.Spec.Scroll
import Verif.Props.C02
import Verif.Props.C26
/-!
# C67: the line is scrolled no further than needed

`C67_reset`: `ResetViewStart` scrolls as far as the unit under the cursor requires and no further.
`C67_start`, `C67_partial`: so does the start and every resize; a command leaves the window where it is, moves it to the left
until the cursor is inside, or scrolls by the least that is needed (`Spec.Scrolls`); motions, deletions and typing leave it
where it is if the cursor is still inside.
`C67_whole_partial`: a line that always fits is always shown from its beginning.
`C67_tabs_partial`: so is one with tabs, if it fits however they fall.
`C67_refuted_fits`: a line that fits now need not be shown from its beginning.
`C67_refuted_wide`: `ForwardChar` over a wide character may scroll too far.
`C67_refuted_rubout`: deleting a word moves the window although the cursor is still inside.

Left out: lines with tabs that do not fit.
-/
namespace Readline
open Spec

variable {E : Env} {w : World} {s s1 s' : St}

/-! ## Sums of columns -/

def acr (ws : List Int) (a b : Nat) : Int := ((ws.take b).drop a).sum

theorem across_acr (C : Cfg) (s : St) (a b : Int) : across C s a b = acr (columnsOf C s) a.toNat b.toNat := rfl

theorem acr_self (ws : List Int) {a b : Nat} (h : b ≤ a) : acr ws a b = 0 := by
  unfold acr
  rw [List.drop_eq_nil_of_le (by rw [List.length_take]; omega)]; rfl

theorem acr_succ {ws : List Int} {a b : Nat} {x : Int} (h : a ≤ b) (hx : ws[b]? = some x) :
    acr ws a (b + 1) = acr ws a b + x := by
  unfold acr
  have hb := (List.getElem?_eq_some_iff.mp hx).1
  rw [List.take_succ, hx, List.drop_append_of_le_length (by rw [List.length_take]; omega), List.sum_append]
  simp

theorem acr_pred {ws : List Int} {a b : Nat} {x : Int} (h : a < b) (hx : ws[a]? = some x) :
    acr ws a b = x + acr ws (a + 1) b := by
  unfold acr
  have e : (ws.take b)[a]? = some x := by rw [List.getElem?_take_of_lt h]; exact hx
  obtain ⟨hl, e⟩ := List.getElem?_eq_some_iff.mp e
  rw [List.drop_eq_getElem_cons hl, e, List.sum_cons]

theorem acr_nonneg {ws : List Int} (h : ∀ x ∈ ws, 0 ≤ x) (a b : Nat) : 0 ≤ acr ws a b := by
  unfold acr
  have : ∀ l : List Int, (∀ x ∈ l, 0 ≤ x) → 0 ≤ l.sum := by
    intro l
    induction l with
    | nil => intro _; exact Int.le_refl _
    | cons x l ih =>
      intro h
      rw [List.sum_cons]
      have := h x (by simp)
      have := ih fun y hy => h y (by simp [hy])
      omega
  exact this _ fun x hx => h x (List.mem_of_mem_take (List.mem_of_mem_drop hx))

theorem acr_mono {ws : List Int} (h : ∀ x ∈ ws, 0 ≤ x) {a b j : Nat} (hj : j ≤ a) : acr ws a b ≤ acr ws j b := by
  induction hj with
  | refl => exact Int.le_refl _
  | @step a hj ih =>
    refine Int.le_trans ?_ ih
    show acr ws (a + 1) b ≤ acr ws a b
    by_cases hab : a < b
    · cases hx : ws[a]? with
      | none =>
        have : ws.length ≤ a := List.getElem?_eq_none_iff.mp hx
        unfold acr
        rw [List.drop_eq_nil_of_le (by rw [List.length_take]; omega), List.drop_eq_nil_of_le (by rw [List.length_take]; omega)]
        exact Int.le_refl _
      | some x =>
        rw [acr_pred hab hx]
        have := h x (List.mem_of_getElem? hx)
        omega
    · rw [acr_self ws (a := a + 1) (by omega)]
      exact acr_nonneg h _ _

theorem acr_right {ws : List Int} (h : ∀ x ∈ ws, 0 ≤ x) {a b c : Nat} (hb : b ≤ c) : acr ws a b ≤ acr ws a c := by
  induction hb with
  | refl => exact Int.le_refl _
  | @step c hb ih =>
    refine Int.le_trans ih ?_
    by_cases hac : a ≤ c
    · cases hx : ws[c]? with
      | none =>
        have : ws.length ≤ c := List.getElem?_eq_none_iff.mp hx
        unfold acr
        rw [List.take_of_length_le this, List.take_of_length_le (by omega)]
        exact Int.le_refl _
      | some x =>
        rw [acr_succ hac hx]
        have := h x (List.mem_of_getElem? hx)
        omega
    · rw [acr_self ws (a := a) (b := c) (by omega)]
      exact acr_nonneg h _ _

theorem columnsOf_mojis (C : Cfg) (s : St) : columnsOf C s = s.mojis.map (Moji.width C) := by
  simp [columnsOf, St.mojis, Function.comp_def]

theorem columnsOf_congr (C : Cfg) (h : s'.mojis = s.mojis) : columnsOf C s' = columnsOf C s := by
  rw [columnsOf_mojis, columnsOf_mojis, h]

theorem columnsOf_length (C : Cfg) (s : St) : ((columnsOf C s).length : Int) = s.len := by
  simp [columnsOf, St.len]

theorem columns_across (C : Cfg) (s : St) (a b : Int) : columns C (s.between a b) = across C s a b := by
  rw [columns_eq, mojisWidth, across, between, St.between, columnsOf_mojis]
  simp [List.map_drop, List.map_take]

theorem columnsOf_nonneg (hw : ∀ m : Moji, 0 ≤ m.width E.cfg) (s : St) : ∀ x ∈ columnsOf E.cfg s, 0 ≤ x := by
  intro x hx
  obtain ⟨c, _, rfl⟩ := List.mem_map.mp hx
  exact hw _

/-! ## `ResetViewStart` -/

theorem resetInner_least {C : Cfg} {buf : List Cell} {vw : Int} {ws : List Int} (hws : ws = buf.map fun c => c.moji.width C)
    (hv : 0 < vw) {i : Nat} (hi : i ≤ buf.length) (fuel vs : Nat) (w : Int) (hvi : vs ≤ i) (hf : i - vs < fuel)
    (hw : w = acr ws vs i) (hl : ∀ j, j < vs → vw ≤ acr ws j i) :
    ∃ vs', resetInner C buf vw fuel vs w = (vs', some (acr ws vs' i)) ∧ vs' ≤ i ∧ acr ws vs' i < vw ∧
      ∀ j, j < vs' → vw ≤ acr ws j i := by
  induction fuel generalizing vs w with
  | zero => omega
  | succ fuel ih =>
    unfold resetInner
    by_cases hge : w ≥ vw
    · rw [if_pos hge]
      have hlt : vs < i := by
        rcases Nat.lt_or_ge vs i with h | h
        · exact h
        · rw [hw, acr_self ws h] at hge; omega
      have hb : vs < buf.length := by omega
      rw [List.getElem?_eq_getElem hb]
      have hx : ws[vs]? = some (buf[vs].moji.width C) := by
        rw [hws, List.getElem?_map, List.getElem?_eq_getElem hb]; rfl
      have hp := acr_pred hlt hx
      refine ih (vs + 1) _ hlt (by omega) (by omega) fun j hj => ?_
      rcases Nat.lt_or_ge j vs with h | h
      · exact hl j h
      · have : j = vs := by omega
        rw [this, ← hw]; exact hge
    · rw [if_neg hge, hw]
      exact ⟨vs, rfl, hvi, by omega, hl⟩

theorem resetOuter_least {C : Cfg} {buf : List Cell} {vw cursor : Int} {ws : List Int}
    (hws : ws = buf.map fun c => c.moji.width C) (h0 : ∀ x ∈ ws, 0 ≤ x) (hv : 0 < vw) (cs : List Cell) (i vs : Nat) (w : Int)
    (hcs : cs = buf.drop i) (hi : (i : Int) ≤ min (cursor + 1) buf.length) (hvi : vs ≤ i) (hw : w = acr ws vs i)
    (hwv : w < vw) (hl : ∀ j, j < vs → vw ≤ acr ws j i) :
    ∃ k, resetOuter C buf vw cursor cs i vs w = k ∧ acr ws k (min (cursor + 1) (buf.length : Int)).toNat < vw ∧
      ∀ j, j < k → vw ≤ acr ws j (min (cursor + 1) (buf.length : Int)).toNat := by
  induction cs generalizing i vs w with
  | nil =>
    have hn : buf.length ≤ i := List.drop_eq_nil_iff.mp hcs.symm
    have e : (min (cursor + 1) (buf.length : Int)).toNat = i := by omega
    rw [e]
    exact ⟨vs, rfl, by rw [← hw]; exact hwv, hl⟩
  | cons c cs ih =>
    have hlt : i < buf.length := by
      rcases Nat.lt_or_ge i buf.length with h | h
      · exact h
      · rw [List.drop_eq_nil_of_le h] at hcs; cases hcs
    rw [List.drop_eq_getElem_cons hlt] at hcs
    injection hcs with hc hcs
    unfold resetOuter
    by_cases hic : (i : Int) ≤ cursor
    · rw [if_pos hic]
      have hx : ws[i]? = some (c.moji.width C) := by
        rw [hws, List.getElem?_map, List.getElem?_eq_getElem hlt, hc]; rfl
      have hnn := h0 _ (List.mem_of_getElem? hx)
      have hstep : ∀ j, j ≤ i → acr ws j (i + 1) = acr ws j i + c.moji.width C := fun j hj => acr_succ hj hx
      obtain ⟨vs', e, a1, a2, a3⟩ := resetInner_least hws hv (i := i + 1) (by omega) (buf.length + 1) vs
        (w + c.moji.width C) (by omega) (by omega) (by rw [hw, hstep vs hvi]) (fun j hj => by
          rw [hstep j (by omega)]
          have := hl j hj
          omega)
      rw [e]
      dsimp only
      have := ih (i + 1) vs' _ hcs (by omega) a1 rfl a2 a3
      have ec : ((i + 1 : Nat) : Int) = (i : Int) + 1 := by omega
      rw [ec] at this
      exact this
    · rw [if_neg hic]
      have e : (min (cursor + 1) (buf.length : Int)).toNat = i := by omega
      rw [e]
      exact ⟨vs, rfl, by rw [← hw]; exact hwv, hl⟩

/-- `ResetViewStart` scrolls as far as the unit under the cursor requires. -/
theorem C67_reset (hw : ∀ m : Moji, 0 ≤ m.width E.cfg) (hv : 0 < s.viewWidth) (hc : -1 ≤ s.cursor) :
    Least E.cfg (resetViewStart E s) (behind s) := by
  obtain ⟨k, e, a, b⟩ := resetOuter_least (C := E.cfg) (buf := s.buf) (vw := s.viewWidth) (cursor := s.cursor) rfl
    (columnsOf_nonneg hw s) hv s.buf 0 0 0 rfl (by omega) (Nat.le_refl _) rfl hv (by omega)
  have e' : (resetViewStart E s).viewStart = k := by unfold resetViewStart; rw [← e]; rfl
  refine ⟨by rw [e']; omega, ?_, ?_⟩
  · rw [e']; exact a
  · intro j hj hjk
    rw [e'] at hjk
    exact b j.toNat (by omega)

theorem Spec.Least.congr {C : Cfg} {e : Int} (h : Least C s e) (hm : s'.mojis = s.mojis) (hv : s'.viewStart = s.viewStart)
    (hw : s'.viewWidth = s.viewWidth) : Least C s' e := by
  have ha : ∀ a b, across C s' a b = across C s a b := fun a b => by
    unfold across; rw [columnsOf_congr C hm]
  exact ⟨by rw [hv]; exact h.low, by rw [ha, hv, hw]; exact h.fits, fun j hj hjk => by
    rw [ha, hw]; exact h.less j hj (by rw [← hv]; exact hjk)⟩

theorem mojis_len (h : s'.mojis = s.mojis) : s'.len = s.len := by rw [← mojis_length, ← mojis_length, h]

theorem behind_congr (hc : s'.cursor = s.cursor) (h : s'.mojis = s.mojis) : behind s' = behind s := by
  unfold behind; rw [hc, mojis_len h]

/-- … and repaints. -/
theorem reset_least (hw : ∀ m : Moji, 0 ≤ m.width E.cfg) (h : repaint E (resetViewStart E s1) = .ok s')
    (ht : ∀ p, Moji.tab p ∉ s'.mojis) (hv : 0 < s'.viewWidth) : Least E.cfg s' (behind s') := by
  obtain ⟨f1, f2, f3, f4, _, f6, a, b, c⟩ := repaint_fields h
  have hm := repaint_mojis h (noTabs_same f6 ht)
  have hw' := viewWidth_eq f3 f4
  have hv1 : 0 < s1.viewWidth := by rw [hw'] at hv; exact hv
  have b' : (resetViewStart E s1).viewStart ≤ s1.cursor := b
  have h1 := C67_reset (s := s1) hw hv1 (by omega)
  rw [behind_congr (s := s1) f2 hm]
  exact h1.congr hm f1 hw'

theorem replace_least (hw : ∀ m : Moji, 0 ≤ m.width E.cfg) {pos : Int} {t : Bytes} (h : replaceAndRepaint E s pos t = .ok s')
    (ht : ∀ p, Moji.tab p ∉ s'.mojis) (hv : 0 < s'.viewWidth) : Least E.cfg s' (behind s') := by
  unfold replaceAndRepaint at h
  obtain ⟨q, h0, h⟩ := bind_ok.mp h
  obtain ⟨q2, h1, h⟩ := bind_ok.mp h
  exact reset_least hw h ht hv

theorem repaint_start (h : repaint E s1 = .ok s') : s'.viewStart = s1.viewStart ∧ s'.cursor = s1.cursor := by
  obtain ⟨f1, f2, _⟩ := repaint_fields h
  exact ⟨f1, f2⟩

/-! ## The commands -/

theorem Spec.Spacious.noTabs (h : Spacious E.cfg s) : ∀ p, Moji.tab p ∉ s.mojis := by
  intro p hp
  obtain ⟨c, hc, e⟩ := List.mem_map.mp hp
  exact h.tabs c hc p e

theorem Spec.Spacious.congr {C : Cfg} (h : Spacious C s) (hb : s'.buf = s.buf) (hv : s'.viewWidth = s.viewWidth) : Spacious C s' :=
  ⟨by rw [hb]; exact h.tabs, by rw [hv]; exact h.view, by unfold columnsOf; rw [hb, hv]; exact h.narrow⟩

/-- From a state that differs in other respects. -/
theorem Spec.Scrolls.of_state {C : Cfg} (h : Scrolls C s1 s') (hv : s1.viewStart = s.viewStart) (hc : s1.cursor = s.cursor) : Scrolls C s s' := by
  cases h with
  | stays h => exact .stays (h.trans hv)
  | left h1 h2 => exact .left (by rw [← hv]; exact h1) h2
  | extended h1 h2 => exact .extended (by rw [← hv, ← hc]; exact h1) (by rw [← hv]; exact h2)
  | under h => exact .under h
  | edge h => exact .edge h

theorem Spec.Scrolls.emit {C : Cfg} {x : Tok} (h : Scrolls C s s') : Scrolls C s (s'.emit x) := by
  cases h with
  | stays h => exact .stays h
  | left h1 h2 => exact .left h1 h2
  | extended h1 h2 => exact .extended h1 h2
  | under h => exact .under ⟨h.low, h.fits, h.less⟩
  | edge h => exact .edge ⟨h.low, h.fits, h.less⟩

/-- The window moves only if it must, and then no further than needed. -/
structure Tight (C : Cfg) (s s' : St) : Prop where
  moves : Scrolls C s s'
  still : StillSeen C s s' → s'.viewStart = s.viewStart

theorem tight_stays {C : Cfg} (h : s'.viewStart = s.viewStart) : Tight C s s' := ⟨.stays h, fun _ => h⟩

/-- To a position that is left of the window, or inside. -/
theorem tight_left {C : Cfg} {a : Int} (hc : s'.cursor = a) (hv : s'.viewStart = if a < s.viewStart then a else s.viewStart) :
    Tight C s s' := by
  split at hv
  · rename_i h
    refine ⟨.left (by rw [hc]; exact h) (by rw [hv, hc]), fun hs => ?_⟩
    have := hs.1
    omega
  · exact tight_stays hv

theorem eolLoop_least {C : Cfg} {buf : List Cell} {vw : Int} {ws : List Int} (hws : ws = buf.map fun c => c.moji.width C)
    (vs : Nat) (hvs : vs ≤ buf.length) (hf : acr ws vs buf.length < vw) (h0 : ∀ x ∈ ws, 0 ≤ x) :
    ∃ k, eolLoop C buf vw vs (acr ws vs buf.length) = k ∧ acr ws k buf.length < vw ∧ ∀ j, j < k → vw ≤ acr ws j buf.length := by
  induction vs with
  | zero => exact ⟨0, rfl, hf, by omega⟩
  | succ vs ih =>
    have hlt : vs < buf.length := by omega
    have hx : ws[vs]? = some (buf[vs].moji.width C) := by
      rw [hws, List.getElem?_map, List.getElem?_eq_getElem hlt]; rfl
    have hp := acr_pred hlt hx
    unfold eolLoop
    rw [List.getElem?_eq_getElem hlt]
    dsimp only
    have e : acr ws (vs + 1) buf.length + buf[vs].moji.width C = acr ws vs buf.length := by omega
    rw [e]
    by_cases hge : acr ws vs buf.length ≥ vw
    · rw [if_pos hge]
      refine ⟨vs + 1, rfl, hf, fun j hj => ?_⟩
      have := acr_mono h0 (a := vs) (b := buf.length) (j := j) (by omega)
      omega
    · rw [if_neg hge]
      exact ih (by omega) (by omega)

theorem endOfLine_moves (hw : ∀ m : Moji, 0 ≤ m.width E.cfg) {p : St × Result} (h : cmdEndOfLine E s = .ok p)
    (hR : Spacious E.cfg p.1) : p.1.cursor = s.len ∧
      ((across E.cfg p.1 s.viewStart s.len < p.1.viewWidth ∧ p.1.viewStart = s.viewStart) ∨
       (p.1.viewWidth ≤ across E.cfg p.1 s.viewStart s.len ∧ Least E.cfg p.1 p.1.cursor)) := by
  have hline : p.1.line = s.line := congrArg Ed.line (endOfLine_ed h).1
  have hT : ∀ p, Moji.tab p ∉ s.mojis := noTabs_same hline hR.noTabs
  unfold cmdEndOfLine at h
  obtain ⟨w, g0, h⟩ := bind_ok.mp h
  obtain ⟨b0, b1, b2, hww⟩ := widthBetween_columns g0
  rw [columns_across] at hww
  split at h
  · rename_i hlt
    obtain ⟨s1, g1, h⟩ := bind_ok.mp h
    obtain ⟨⟨b, o, e⟩, hm, _⟩ := puts_row (lit := fun _ r => r) (St.noTabs_aligned (E := E) hT) g1
    have hp : p.1 = eraseline { s1 with cursor := s1.len } := by rw [← pure_ok.mp h]
    have e1 : p.1.mojis = s.mojis := by rw [hp]; exact hm
    have e2 : p.1.viewWidth = s.viewWidth := by rw [hp, e]; rfl
    refine ⟨?_, .inl ⟨?_, ?_⟩⟩
    · rw [hp]; exact mojis_len hm
    · unfold across; rw [columnsOf_congr _ e1, e2]
      have : across E.cfg s s.viewStart s.len < s.viewWidth := by omega
      exact this
    · rw [hp, e]; rfl
  · rename_i hge
    obtain ⟨c, g1, h⟩ := bind_ok.mp h
    obtain ⟨s1, g2, h⟩ := bind_ok.mp h
    obtain ⟨c0, c1, c2⟩ := index_ok g1
    replace c0 : 0 ≤ s.len - 1 := c0
    replace c2 : s.buf[(s.len - 1).toNat]? = some c := c2
    obtain ⟨⟨b, o, e⟩, hm, _⟩ := puts_row (lit := fun _ r => r)
      (s := { gotoHead s with viewStart := (eolLoop E.cfg s.buf s.viewWidth (s.len - 1).toNat
        (c.moji.width E.cfg) : Nat) }) (St.noTabs_aligned (E := E) hT) g2
    have hp : p.1 = eraseline { s1 with cursor := s1.len } := by rw [← pure_ok.mp h]
    have e1 : p.1.mojis = s.mojis := by rw [hp]; exact hm
    have e2 : p.1.viewWidth = s.viewWidth := by rw [hp, e]; rfl
    have e3 : p.1.viewStart = (eolLoop E.cfg s.buf s.viewWidth (s.len - 1).toNat (c.moji.width E.cfg) : Nat) := by
      rw [hp, e]; rfl
    have e4 : p.1.cursor = s.len := by rw [hp]; exact mojis_len (s := s) hm
    have e5 := columnsOf_congr E.cfg e1
    have hsl : s.len = (s.buf.length : Int) := rfl
    have hbl : (s.len - 1).toNat + 1 = s.buf.length := by omega
    have hxc : (columnsOf E.cfg s)[(s.len - 1).toNat]? = some (c.moji.width E.cfg) := by
      unfold columnsOf; rw [List.getElem?_map, c2]; rfl
    have hone : acr (columnsOf E.cfg s) (s.len - 1).toNat s.buf.length = c.moji.width E.cfg := by
      rw [← hbl, acr_succ (Nat.le_refl _) hxc, acr_self _ (Nat.le_refl _)]; omega
    have hnar : c.moji.width E.cfg < s.viewWidth := by
      rw [← e2]
      apply hR.narrow
      rw [e5]
      exact List.mem_of_getElem? hxc
    obtain ⟨k, f1, f2, f3⟩ := eolLoop_least (C := E.cfg) (buf := s.buf) (vw := s.viewWidth) rfl (s.len - 1).toNat (by omega)
      (by rw [← columnsOf, hone]; exact hnar) (columnsOf_nonneg hw s)
    rw [← columnsOf] at f1 f2 f3
    rw [hone] at f1
    rw [f1] at e3
    refine ⟨e4, .inr ⟨?_, ?_, ?_, ?_⟩⟩
    · unfold across; rw [e5, e2]
      have : s.viewWidth ≤ across E.cfg s s.viewStart s.len := by omega
      exact this
    · rw [e3]; omega
    · unfold across; rw [e5, e2, e3, e4]
      exact f2
    · intro j hj hjk
      rw [e3] at hjk
      unfold across; rw [e5, e2, e4]
      exact f3 j.toNat (by omega)

/-- The window moves by one to the right. -/
theorem edge_least {v c : Nat} {a x : Int} {ws : List Int} {vw : Int} (hn : ∀ x ∈ ws, 0 ≤ x)
    (hvc : v ≤ c) (hx : ws[c]? = some x) (ha : ws[v]? = some a) (hax : x ≤ a) (hin : acr ws v c < vw) (hge : vw ≤ acr ws v (c + 1)) :
    acr ws (v + 1) (c + 1) < vw ∧ ∀ j, j < v + 1 → vw ≤ acr ws j (c + 1) := by
  have h1 := acr_succ hvc hx
  have h2 := acr_pred (b := c + 1) (by omega) ha
  refine ⟨by omega, fun j hj => ?_⟩
  have := acr_mono hn (a := v) (b := c + 1) (j := j) (by omega)
  omega

theorem endOfLine_tight (hw : ∀ m : Moji, 0 ≤ m.width E.cfg) {p : St × Result} (h : cmdEndOfLine E s = .ok p)
    (hR : Spacious E.cfg p.1) : Tight E.cfg s p.1 := by
  obtain ⟨hc, h | h⟩ := endOfLine_moves hw h hR
  · exact tight_stays h.2
  · refine ⟨.edge h.2, fun hs => ?_⟩
    have := hs.2
    rw [hc] at this
    omega

theorem forwardChar_tight (hw : ∀ m : Moji, 0 ≤ m.width E.cfg) {p : St × Result} (h : cmdForwardChar E s = .ok p)
    (hR : Spacious E.cfg p.1) (hV : InView E s)
    (hU : s.viewWidth ≤ across E.cfg s s.viewStart (s.cursor + 1) → NoWider E.cfg s) (hc : s.cursor < s.len) : Tight E.cfg s p.1 := by
  have hline : p.1.line = s.line := by
    have := congrArg Ed.line (forwardChar_ed h).1
    simp only [Ed.call] at this
    rw [if_neg (by show ¬ s.ed.cursor ≥ s.ed.len; rw [ed_len]; exact Int.not_le.mpr hc)] at this
    exact this
  have hT : ∀ p, Moji.tab p ∉ s.mojis := noTabs_same hline hR.noTabs
  unfold cmdForwardChar at h
  rw [if_neg (by omega)] at h
  obtain ⟨w, g0, h⟩ := bind_ok.mp h
  obtain ⟨b0, b1, b2, hww⟩ := widthBetween_columns g0
  rw [columns_across] at hww
  split at h
  · obtain ⟨s1, g1, h⟩ := bind_ok.mp h
    obtain ⟨f1, _⟩ := same_fields (puts_same g1).1
    rw [← pure_ok.mp h]
    exact tight_stays f1
  · rename_i hge
    obtain ⟨c, g1, h⟩ := bind_ok.mp h
    obtain ⟨v, g2, h⟩ := bind_ok.mp h
    obtain ⟨s1, g3, h⟩ := bind_ok.mp h
    obtain ⟨c0, c1, c2⟩ := index_ok g1
    obtain ⟨d0, d1, d2⟩ := index_ok g2
    replace c2 : s.buf[s.cursor.toNat]? = some c := c2
    replace d2 : s.buf[s.viewStart.toNat]? = some v := d2
    have hx : (columnsOf E.cfg s)[s.cursor.toNat]? = some (c.moji.width E.cfg) := by
      unfold columnsOf; rw [List.getElem?_map, c2]; rfl
    have ha : (columnsOf E.cfg s)[s.viewStart.toNat]? = some (v.moji.width E.cfg) := by
      unfold columnsOf; rw [List.getElem?_map, d2]; rfl
    have hxa := hU (by omega) _ _ hx ha
    have hif : (if c.moji.width E.cfg > v.moji.width E.cfg then (gotoHead s).viewStart + 1 else (gotoHead s).viewStart) = s.viewStart :=
      if_neg (by omega)
    dsimp only at g3
    rw [hif] at g3
    obtain ⟨⟨b, o, e⟩, hm, _⟩ := puts_row (lit := fun _ r => r)
      (s := { gotoHead s with viewStart := s.viewStart + 1 }) (St.noTabs_aligned (E := E) hT) g3
    have hp : p.1 = { eraseline s1 with cursor := (eraseline s1).cursor + 1 } := by rw [← pure_ok.mp h]
    have e1 : p.1.mojis = s.mojis := by rw [hp]; exact hm
    have e2 : p.1.viewWidth = s.viewWidth := by rw [hp, e]; rfl
    have e3 : p.1.viewStart = s.viewStart + 1 := by rw [hp, e]; rfl
    have e4 : p.1.cursor = s.cursor + 1 := by rw [hp, e]; rfl
    have e5 := columnsOf_congr E.cfg e1
    have hfit := hV.fits
    rw [columns_across] at hfit
    have v0 := hV.low
    have v1 := hV.mid
    have n1 : (s.cursor + 1).toNat = s.cursor.toNat + 1 := by omega
    have n2 : (s.viewStart + 1).toNat = s.viewStart.toNat + 1 := by omega
    have hgew : s.viewWidth ≤ acr (columnsOf E.cfg s) s.viewStart.toNat (s.cursor.toNat + 1) := by
      rw [across_acr, n1] at hww; omega
    obtain ⟨k1, k2⟩ := edge_least (columnsOf_nonneg hw s) (by omega) hx ha hxa hfit hgew
    refine ⟨.edge ⟨by omega, ?_, ?_⟩, fun hs => ?_⟩
    · rw [across_acr, e5, e3, e4, n1, n2, e2]; exact k1
    · intro j hj hjk
      rw [across_acr, e5, e4, n1, e2]
      exact k2 _ (by omega)
    · have := hs.2
      rw [across_acr, e5, e4, n1, e2] at this
      omega

theorem acr_take {ws ws' : List Int} {b : Nat} (h : ws'.take b = ws.take b) (a : Nat) : acr ws' a b = acr ws a b := by
  unfold acr; rw [h]

theorem swapAt_acr {ws : List Int} {i j : Nat} (hi : i + 1 < ws.length) (hj : j ≤ i) :
    acr (swapAt ws i) j (i + 2) = acr ws j (i + 2) := by
  have h1 : ws[i]? = some ws[i] := List.getElem?_eq_getElem (by omega)
  have h2 : ws[i + 1]? = some ws[i + 1] := List.getElem?_eq_getElem hi
  have e : swapAt ws i = (ws.set i ws[i + 1]).set (i + 1) ws[i] := by unfold swapAt; rw [h1, h2]
  have k1 : (swapAt ws i)[i]? = some ws[i + 1] := by
    rw [e, List.getElem?_set_ne (by omega), List.getElem?_set_self (by omega)]
  have k2 : (swapAt ws i)[i + 1]? = some ws[i] := by
    rw [e, List.getElem?_set_self (by rw [List.length_set]; omega)]
  have k3 : (swapAt ws i).take i = ws.take i := by
    rw [e, List.take_set_of_le (by omega), List.take_set_of_le (by omega)]
  rw [acr_succ (by omega) k2, acr_succ hj k1, acr_succ (by omega) h2, acr_succ hj h1, acr_take k3]
  omega

theorem swapAt_last {ws : List Int} {i : Nat} (hi : i + 1 < ws.length) : (swapAt ws i)[i + 1]? = ws[i]? := by
  have h1 : ws[i]? = some ws[i] := List.getElem?_eq_getElem (by omega)
  have h2 : ws[i + 1]? = some ws[i + 1] := List.getElem?_eq_getElem hi
  unfold swapAt
  rw [h1, h2]
  dsimp only
  rw [List.getElem?_set_self (by rw [List.length_set]; omega)]

theorem swapChar_tight (hw : ∀ m : Moji, 0 ≤ m.width E.cfg) {p : St × Result} (h : cmdSwapChar E s = .ok p)
    (hR : Spacious E.cfg s) (hV : InView E s)
    (hU : s.viewWidth ≤ across E.cfg s s.viewStart (s.cursor + 1) → NoWider E.cfg s) : Tight E.cfg s p.1 := by
  unfold cmdSwapChar at h
  split at h
  · split at h
    · cases h; exact tight_stays rfl
    · obtain ⟨two, h0, h⟩ := bind_ok.mp h
      obtain ⟨s1, h1, h⟩ := bind_ok.mp h
      obtain ⟨f1, _⟩ := same_fields (puts_same h1).1
      rw [← pure_ok.mp h]
      exact tight_stays f1
  · split at h
    · cases h; exact tight_stays rfl
    · rename_i hne hc1
      obtain ⟨two, h0, h⟩ := bind_ok.mp h
      obtain ⟨w, g0, h⟩ := bind_ok.mp h
      obtain ⟨s1, h2, h⟩ := bind_ok.mp h
      have hp : p.1 = s1 := by rw [← pure_ok.mp h]
      rw [hp]
      obtain ⟨b0, b1, b2, hww⟩ := widthBetween_columns g0
      rw [columns_across] at hww
      replace hww : w = across E.cfg s s.viewStart (s.cursor + 1) := hww
      replace b2 : s.cursor + 1 ≤ s.len := b2
      generalize hsw : ({ s with undoes := _, buf := swapAt s.buf (s.cursor - 1).toNat } : St) = sw at h2
      have w1 : sw.mojis = swapAt s.mojis (s.cursor - 1).toNat := by
        rw [← hsw]; exact swapAt_map _ _ _
      have w2 : sw.viewStart = s.viewStart ∧ sw.cursor = s.cursor := by rw [← hsw]; exact ⟨rfl, rfl⟩
      have w4 : sw.viewWidth = s.viewWidth := by rw [← hsw]; rfl
      generalize hst : ({ (if w ≥ (gotoHead sw).viewWidth then
          { gotoHead sw with viewStart := (gotoHead sw).viewStart + 1 } else gotoHead sw) with
          cursor := (if w ≥ (gotoHead sw).viewWidth then
          { gotoHead sw with viewStart := (gotoHead sw).viewStart + 1 } else gotoHead sw).cursor + 1 } : St) = st at h2
      have t1 : st.mojis = sw.mojis := by rw [← hst]; split <;> rfl
      have t2 : st.cursor = s.cursor + 1 := by
        rw [← hst]
        split
        · show sw.cursor + 1 = _; rw [w2.2]
        · show sw.cursor + 1 = _; rw [w2.2]
      have t3 : st.viewWidth = s.viewWidth := by rw [← hst]; split <;> exact w4
      have t6 : st.viewStart = if w ≥ s.viewWidth then s.viewStart + 1 else s.viewStart := by
        rw [← hst]
        have : (gotoHead sw).viewWidth = s.viewWidth := w4
        rw [this]
        split
        · show sw.viewStart + 1 = _; rw [w2.1]
        · show sw.viewStart = _; rw [w2.1]
      have hT : ∀ p, Moji.tab p ∉ st.mojis := fun p hp => hR.noTabs p (swapAt_mem (by rw [← w1, ← t1]; exact hp))
      obtain ⟨⟨b, o, e⟩, hm, _⟩ := puts_row (lit := fun _ r => r) (St.noTabs_aligned (E := E) hT) h2
      have q1 : s1.viewStart = st.viewStart := by rw [e]
      have q2 : s1.cursor = s.cursor + 1 := by rw [e]; exact t2
      have q3 : s1.viewWidth = s.viewWidth := by rw [e]; exact t3
      have q4 : columnsOf E.cfg s1 = swapAt (columnsOf E.cfg s) (s.cursor - 1).toNat := by
        rw [columnsOf_mojis, columnsOf_mojis, hm, t1, w1, swapAt_map]
      rw [t6] at q1
      by_cases hge : w ≥ s.viewWidth
      · rw [if_pos hge] at q1
        have v0 := hV.low
        have v1 := hV.mid
        have hfit := hV.fits
        rw [columns_across] at hfit
        have hlen := columnsOf_length E.cfg s
        have hx : (columnsOf E.cfg s)[s.cursor.toNat]? = some (columnsOf E.cfg s)[s.cursor.toNat] :=
          List.getElem?_eq_getElem (by omega)
        have ha : (columnsOf E.cfg s)[s.viewStart.toNat]? = some (columnsOf E.cfg s)[s.viewStart.toNat] :=
          List.getElem?_eq_getElem (by omega)
        have hxa := hU (by omega) _ _ hx ha
        have n1 : (s.cursor + 1).toNat = s.cursor.toNat + 1 := by omega
        have n2 : (s.viewStart + 1).toNat = s.viewStart.toNat + 1 := by omega
        have n3 : s.cursor.toNat = (s.cursor - 1).toNat + 1 := by omega
        have hgew : s.viewWidth ≤ acr (columnsOf E.cfg s) s.viewStart.toNat (s.cursor.toNat + 1) := by
          rw [across_acr, n1] at hww; omega
        have hlt : s.viewStart < s.cursor := by
          rcases Int.lt_or_le s.viewStart s.cursor with h | h
          · exact h
          · have e3 : s.viewStart.toNat = s.cursor.toNat := by omega
            rw [e3, acr_succ (Nat.le_refl _) hx, acr_self _ (Nat.le_refl _)] at hgew
            have := hR.narrow _ (List.mem_of_getElem? hx)
            omega
        obtain ⟨k1, k2⟩ := edge_least (columnsOf_nonneg hw s) (by omega) hx ha hxa hfit hgew
        have key : ∀ j, j ≤ (s.cursor - 1).toNat → acr (columnsOf E.cfg s1) j (s.cursor.toNat + 1) =
            acr (columnsOf E.cfg s) j (s.cursor.toNat + 1) := by
          intro j hj
          rw [q4, show s.cursor.toNat + 1 = (s.cursor - 1).toNat + 2 by omega]
          exact swapAt_acr (by omega) hj
        refine ⟨.edge ⟨by omega, ?_, ?_⟩, fun hs => ?_⟩
        · rw [across_acr, q1, q2, n1, n2, q3]
          by_cases h1 : s.viewStart.toNat + 1 ≤ (s.cursor - 1).toNat
          · rw [key _ h1]; exact k1
          · have e3 : s.viewStart.toNat = (s.cursor - 1).toNat := by omega
            have hl : (columnsOf E.cfg s1)[s.cursor.toNat]? = some (columnsOf E.cfg s)[s.viewStart.toNat] := by
              rw [q4, n3, swapAt_last (by omega), ← e3]; exact ha
            have e4 : s.viewStart.toNat + 1 = s.cursor.toNat := by omega
            rw [e4, acr_succ (Nat.le_refl _) hl, acr_self _ (Nat.le_refl _)]
            have := hR.narrow _ (List.mem_of_getElem? ha)
            omega
        · intro j hj hjk
          rw [across_acr, q2, n1, q3, key _ (by omega)]
          exact k2 _ (by omega)
        · have := hs.2
          rw [across_acr, q2, n1, q3, key _ (by omega)] at this
          omega
      · rw [if_neg hge] at q1
        exact tight_stays q1

theorem between_middle {α : Type} {a b c : List α} {n m : Nat} (ha : a.length = n) (hb : b.length = m) :
    ((a ++ b ++ c).take (n + m)).drop n = b := by
  subst ha hb
  rw [← List.length_append, List.take_left, List.drop_left]

theorem selfInsertTail_tight (hw : ∀ m : Moji, 0 ≤ m.width E.cfg) {t : Bytes} {p : St × Result}
    (h : selfInsertTail E s t = .ok p) (hR : Spacious E.cfg p.1) :
    p.1.viewStart = s.viewStart ∨ Least E.cfg p.1 (behind p.1) ∧ ¬ StillSeen E.cfg s p.1 := by
  unfold selfInsertTail at h
  obtain ⟨q, h0, h⟩ := bind_ok.mp h
  obtain ⟨w, h1, h⟩ := bind_ok.mp h
  obtain ⟨s1, h2, h⟩ := bind_ok.mp h
  have hp : p.1 = s1 := by rw [← pure_ok.mp h]
  rw [hp] at hR ⊢
  obtain ⟨q, cs⟩ := q
  obtain ⟨⟨i0, i1⟩, _, _, _, ⟨b, u, e⟩, hbuf⟩ := insertString_ok h0
  dsimp only at *
  have e1 : q.viewStart = s.viewStart := by rw [e]
  have e2 : q.cursor = s.cursor := by rw [e]
  split at h2
  · rename_i hge
    obtain ⟨f1, f2, f3, f4, _, f6, a, _, _⟩ := repaint_fields h2
    have f2' : s1.cursor = q.cursor + cs.length := f2
    have hL := reset_least hw h2 hR.noTabs hR.view
    refine .inr ⟨hL, fun hs => ?_⟩
    have hT := noTabs_same f6 hR.noTabs
    have hm := repaint_mojis h2 hT
    replace hm : s1.mojis = q.mojis := hm
    have hvw : s1.viewWidth = q.viewWidth := by
      have := viewWidth_eq f3 f4
      exact this
    obtain ⟨b0, b1, b2, hww⟩ := widthBetween_columns h1
    have := hs.2
    rw [← columns_across, between_congr hm, hvw, f2', ← e1, between_split b1 (by omega), columns_append, ← hww] at this
    have hmid : q.between q.cursor (q.cursor + cs.length) = cs.map Cell.moji := by
      unfold St.between St.mojis
      rw [hbuf, e2]
      have n1 : (s.cursor + cs.length).toNat = s.cursor.toNat + cs.length := by omega
      have hl : (s.buf.take s.cursor.toNat).length = s.cursor.toNat := by
        rw [List.length_take]; unfold St.len at i1; omega
      rw [n1, List.map_append, List.map_append]
      exact between_middle (by rw [List.length_map, hl]) (by rw [List.length_map])
    rw [hmid, columns_eq, ← cellsWidth_mojis] at this
    have hge' : w + cellsWidth E.cfg cs ≥ q.viewWidth := hge
    omega
  · obtain ⟨f1, f2, _⟩ := repaint_fields h2
    exact .inl (f1.trans e1)

theorem backspace_fields {p : St × Result} (h : cmdBackwardDeleteChar E s = .ok p) (hc : 0 < s.cursor) :
    p.1.cursor = s.cursor - 1 ∧ p.1.viewStart = if s.cursor - 1 < s.viewStart then s.cursor - 1 else s.viewStart := by
  unfold cmdBackwardDeleteChar at h
  rw [if_pos hc] at h
  obtain ⟨q, h0, h⟩ := bind_ok.mp h
  obtain ⟨s1, h1, h⟩ := bind_ok.mp h
  rw [← pure_ok.mp h]
  obtain ⟨⟨b, u, e⟩, _⟩ := deleteCells_left h0
  obtain ⟨f1, f2, _⟩ := repaint_fields h1
  have e1 : q.1.cursor = s.cursor - 1 := by rw [e]
  have e2 : q.1.viewStart = s.viewStart := by rw [e]
  constructor
  · show s1.cursor = _
    rw [f2]
    split <;> exact e1
  · show s1.viewStart = _
    rw [f1, e1, e2]
    split
    · rfl
    · exact e2

theorem backspace_tight {C : Cfg} {p : St × Result} (h : cmdBackwardDeleteChar E s = .ok p) : Tight C s p.1 := by
  by_cases hc : 0 < s.cursor
  · obtain ⟨f1, f2⟩ := backspace_fields h hc
    exact tight_left f1 f2
  · unfold cmdBackwardDeleteChar at h
    rw [if_neg hc] at h
    cases h
    exact tight_stays rfl

theorem selfInsert_moves (hw : ∀ m : Moji, 0 ≤ m.width E.cfg) {k : Bytes} {p : St × Result}
    (h : cmdSelfInsert E k s = .ok p) (hR : Spacious E.cfg p.1) (hV : InView E s) :
    Scrolls E.cfg s p.1 ∧ (Apart E.cfg s k → StillSeen E.cfg s p.1 → p.1.viewStart = s.viewStart) := by
  unfold cmdSelfInsert at h
  dsimp only at h
  split at h
  · obtain ⟨c, h1, h⟩ := bind_ok.mp h
    have := backspace_tight (C := E.cfg) h
    exact ⟨this.moves.of_state rfl rfl, fun _ hs => this.still hs⟩
  · split at h
    · rename_i hc
      have hcur : 0 < s.cursor := by simp at hc; exact hc.2
      have hj : Joins E.cfg (decodeRune (stripAlt k)).1 := by
        simp [areVariationSelectorLike, isVariationSelectorLike, areEmojiModifier, isEmojiModifier] at hc
        rcases hc.1 with h | h
        · exact .inr (.inl ⟨h.1, h.2⟩)
        · exact .inr (.inr ⟨h.1, h.2⟩)
      obtain ⟨c, h1, h⟩ := bind_ok.mp h
      obtain ⟨q, h2, h⟩ := bind_ok.mp h
      obtain ⟨f1, f2⟩ := backspace_fields h2 hcur
      have ht := selfInsertTail_tight hw h hR
      by_cases hlt : s.cursor - 1 < s.viewStart
      · rw [if_pos hlt] at f2
        have v1 := hV.mid
        refine ⟨?_, fun ha => ?_⟩
        · rcases ht with h | h
          · exact .extended (by omega) (by omega)
          · exact .under h.1
        · rcases ha with ha | ha | ha
          · omega
          · omega
          · exact absurd hj ha
      · rw [if_neg hlt] at f2
        rcases ht with h | h
        · exact ⟨.stays (h.trans f2), fun _ _ => h.trans f2⟩
        · refine ⟨.under h.1, fun _ hs => absurd ⟨?_, ?_⟩ h.2⟩
          · rw [f2]; exact hs.1
          · rw [f2]; exact hs.2
    · have key : ∀ {s1 : St} {t : Bytes}, selfInsertTail E s1 t = .ok p → s1.viewStart = s.viewStart →
          Scrolls E.cfg s p.1 ∧ (Apart E.cfg s k → StillSeen E.cfg s p.1 → p.1.viewStart = s.viewStart) := by
        intro s1 t h hv
        rcases selfInsertTail_tight hw h hR with h | h
        · exact ⟨.stays (h.trans hv), fun _ _ => h.trans hv⟩
        · refine ⟨.under h.1, fun _ hs => absurd ⟨?_, ?_⟩ h.2⟩
          · rw [hv]; exact hs.1
          · rw [hv]; exact hs.2
      split at h
      · exact key h rfl
      · exact key h rfl

theorem wordRubout_moves (hw : ∀ m : Moji, 0 ≤ m.width E.cfg) {p : St × Result} (h : cmdUnixWordRubout E s = .ok p)
    (hR : Spacious E.cfg p.1) : Scrolls E.cfg s p.1 := by
  unfold cmdUnixWordRubout at h
  obtain ⟨_, _, h⟩ := bind_ok.mp h
  obtain ⟨new, h1, h⟩ := bind_ok.mp h
  obtain ⟨t, h2, h⟩ := bind_ok.mp h
  obtain ⟨q, h3, h⟩ := bind_ok.mp h
  obtain ⟨s2, h4, h⟩ := bind_ok.mp h
  have hp : p.1 = s2 := by rw [← pure_ok.mp h]
  rw [hp] at hR ⊢
  obtain ⟨⟨b, u, e⟩, _⟩ := deleteCells_left h3
  have e1 : q.1.viewStart = s.viewStart := by rw [e]
  split at h4
  · exact .under (reset_least hw h4 hR.noTabs hR.view)
  · exact .stays ((repaint_fields h4).1.trans e1)

theorem repaintAll_start (h : repaintAll E s1 = .ok s') : s'.viewStart = s1.viewStart := by
  unfold repaintAll at h
  obtain ⟨_, _, f3, _⟩ := callPrompt_fields (E := E) (s := s1.emit .flush)
  exact (repaint_fields h).1.trans f3

theorem undo_moves (hw : ∀ m : Moji, 0 ≤ m.width E.cfg) {p : St × Result} (h : cmdUndo E s = .ok p)
    (hR : Spacious E.cfg p.1) : Scrolls E.cfg s p.1 := by
  unfold cmdUndo at h
  split at h
  · cases h; exact .stays rfl
  · obtain ⟨b1, h1, h⟩ := bind_ok.mp h
    obtain ⟨s1, h2, h⟩ := bind_ok.mp h
    obtain ⟨s2, h3, h⟩ := bind_ok.mp h
    have hp : p.1 = s2 := by rw [← pure_ok.mp h]
    rw [hp] at hR ⊢
    exact .under (reset_least hw h3 hR.noTabs hR.view)

theorem showHistory_moves (hw : ∀ m : Moji, 0 ≤ m.width E.cfg) {p : St × Result} (h : showHistory E s = .ok p)
    (hR : Spacious E.cfg p.1) (h0 : 0 ≤ s.viewStart) : Scrolls E.cfg s p.1 := by
  unfold showHistory at h
  obtain ⟨q, h1, h⟩ := bind_ok.mp h
  obtain ⟨t, h2, h⟩ := bind_ok.mp h
  have hz : q.1.cursor = 0 ∧ q.1.viewStart = 0 := by
    unfold cmdKillWholeLine at h1
    rw [← pure_ok.mp h1]; exact ⟨rfl, rfl⟩
  split at h
  · obtain ⟨q2, h3, h⟩ := bind_ok.mp h
    obtain ⟨q3, h4, h⟩ := bind_ok.mp h
    have hp : p.1 = q3.1 := by rw [← pure_ok.mp h]
    rw [hp] at hR ⊢
    obtain ⟨hc, h | h⟩ := endOfLine_moves hw h4 hR
    · have h5 : q3.1.viewStart = 0 := h.2
      refine .edge ⟨by omega, ?_, fun j hj hjk => by omega⟩
      rw [hc, h.2]; exact h.1
    · exact .edge h.2
  · have hp : p.1 = q.1 := by rw [← pure_ok.mp h]
    rw [hp]
    by_cases hv : s.viewStart = 0
    · exact .stays (by omega)
    · exact .left (by omega) (by omega)

theorem isearch_moves (hw : ∀ m : Moji, 0 ≤ m.width E.cfg) (n : Nat) (it : ISt) (s : St) {p : St × Result}
    (h : isearchLoop E n it s = .ok p) (hR : Spacious E.cfg p.1) : Scrolls E.cfg s p.1 := by
  induction n generalizing it s with
  | zero => cases h
  | succ n ih =>
    unfold isearchLoop at h
    obtain ⟨s1, h1, h⟩ := bind_ok.mp h
    obtain ⟨o, e1⟩ := drawLoop_buf h1
    cases hg : getKey ((eraseline s1).emit .cursorOn) with
    | mk k s2 =>
    obtain ⟨rest, e2⟩ := getKey_state hg
    dsimp only at h
    rw [hg] at h
    have v2 : s2.viewStart = s.viewStart := by rw [e2, e1]; rfl
    have c2 : s2.cursor = s.cursor := by rw [e2, e1]; rfl
    have again : ∀ it', isearchLoop E n it' (gotoHead (s2.emit .cursorOff)) = .ok p → Scrolls E.cfg s p.1 :=
      fun it' h' => (ih it' _ h').of_state v2 c2
    cases k with
    | none =>
      have hp : p.1 = s2 := by rw [← pure_ok.mp h]
      exact .stays (by rw [hp]; exact v2)
    | some key =>
    dsimp only at h
    split at h
    · exact again _ h
    split at h
    · obtain ⟨s4, h4, h⟩ := bind_ok.mp h
      have hp : p.1 = s4 := by rw [← pure_ok.mp h]
      rw [hp] at hR ⊢
      exact .under (replace_least hw h4 hR.noTabs hR.view)
    split at h
    · obtain ⟨nw, h4, h⟩ := bind_ok.mp h
      obtain ⟨s5, h5, h⟩ := bind_ok.mp h
      obtain ⟨s6, h6, h⟩ := bind_ok.mp h
      have hp : p.1 = s6 := by rw [← pure_ok.mp h]
      rw [hp]
      have a := (same_fields (puts_same h5).1).1
      have b := (same_fields (puts_same h6).1).1
      exact .stays (b.trans (a.trans v2))
    split at h
    · obtain ⟨it', h4, h⟩ := bind_ok.mp h
      exact again _ h
    split at h
    · obtain ⟨it', h4, h⟩ := bind_ok.mp h
      exact again _ h
    split at h
    · exact again _ h
    · exact again _ h

/-- Every built-in command. -/
theorem call_moves (hw : ∀ m : Moji, 0 ≤ m.width E.cfg) {c : Cmd} (hb : c.builtin = true) {p : St × Result}
    (h : Cmd.call E c s = .ok p) (hV : InView E s) (hR : Spacious E.cfg s) (hR' : Spacious E.cfg p.1)
    (hU : (c = .forwardChar ∨ c = .swapChar) → s.viewWidth ≤ across E.cfg s s.viewStart (s.cursor + 1) → NoWider E.cfg s) :
    Scrolls E.cfg s p.1 ∧ (Gentle c = true → (c = .forwardChar → s.cursor < s.len) → (∀ k, c = .selfInsert k → Apart E.cfg s k) →
      StillSeen E.cfg s p.1 → p.1.viewStart = s.viewStart) := by
  have gentle : Tight E.cfg s p.1 → Scrolls E.cfg s p.1 ∧ (Gentle c = true → (c = .forwardChar → s.cursor < s.len) →
      (∀ k, c = .selfInsert k → Apart E.cfg s k) → StillSeen E.cfg s p.1 → p.1.viewStart = s.viewStart) :=
    fun h => ⟨h.moves, fun _ _ _ => h.still⟩
  have del : cmdDeleteChar E s = .ok p → p.1.viewStart = s.viewStart := by
    intro h
    unfold cmdDeleteChar at h
    obtain ⟨q, h0, h⟩ := bind_ok.mp h
    obtain ⟨s1, h1, h⟩ := bind_ok.mp h
    obtain ⟨⟨b, u, e⟩, _⟩ := deleteCells_left h0
    rw [← pure_ok.mp h]
    exact (repaint_fields h1).1.trans (by rw [e])
  have front : p.1.cursor = 0 → p.1.viewStart = 0 → Tight E.cfg s p.1 := by
    intro h1 h2
    have := hV.low
    refine tight_left h1 ?_
    split <;> omega
  cases c with
  | acceptLine =>
    have : p = (s, .enter) := by rw [← pure_ok.mp h]
    rw [this]; exact ⟨.stays rfl, fun h => nomatch h⟩
  | interrupt =>
    refine ⟨(front ?_ ?_).moves, fun h => nomatch h⟩
    · rw [← pure_ok.mp h]
    · rw [← pure_ok.mp h]
  | beginningOfLine =>
    obtain ⟨s1, h1, h⟩ := bind_ok.mp h
    apply gentle
    obtain ⟨f1, f2, _⟩ := repaint_fields h1
    apply front
    · rw [← pure_ok.mp h]; exact f2
    · rw [← pure_ok.mp h]; exact f1
  | backwardChar =>
    change cmdBackwardChar E s = .ok p at h
    unfold cmdBackwardChar at h
    apply gentle
    split at h
    · cases h; exact tight_stays rfl
    · obtain ⟨s1, h1, h⟩ := bind_ok.mp h
      obtain ⟨f1, f2, _⟩ := repaint_fields h1
      rw [← pure_ok.mp h]
      refine tight_left (a := s.cursor - 1) f2 (f1.trans ?_)
      have := hV.mid
      show (if s.cursor - 1 < s.viewStart then s.viewStart - 1 else s.viewStart) = _
      split <;> omega
  | endOfLine => exact gentle (endOfLine_tight hw h hR')
  | forwardChar =>
    by_cases hc : s.cursor < s.len
    · exact gentle (forwardChar_tight hw h hR' hV (hU (.inl rfl)) hc)
    · refine ⟨?_, fun _ h => absurd (h rfl) hc⟩
      change cmdForwardChar E s = .ok p at h
      unfold cmdForwardChar at h
      rw [if_pos (by omega)] at h
      split at h
      · obtain ⟨s1, h1, h⟩ := bind_ok.mp h
        have hp : p.1 = s1 := by rw [← pure_ok.mp h]
        rw [hp] at hR' ⊢
        exact .under (replace_least hw h1 hR'.noTabs hR'.view)
      · cases h; exact .stays rfl
  | backwardDeleteChar => exact gentle (backspace_tight h)
  | deleteChar => exact gentle (tight_stays (del h))
  | deleteOrAbort =>
    apply gentle
    change cmdDeleteOrAbort E s = .ok p at h
    unfold cmdDeleteOrAbort at h
    split at h
    · exact tight_stays (del h)
    · cases h; exact tight_stays rfl
  | killLine =>
    apply gentle
    change cmdKillLine E s = .ok p at h
    unfold cmdKillLine at h
    obtain ⟨_, _, h⟩ := bind_ok.mp h
    obtain ⟨_, _, h⟩ := bind_ok.mp h
    obtain ⟨_, _, h⟩ := bind_ok.mp h
    rw [← pure_ok.mp h]
    exact tight_stays rfl
  | killWholeLine =>
    apply gentle
    apply front
    · rw [← pure_ok.mp h]
    · rw [← pure_ok.mp h]
  | unixWordRubout => exact ⟨wordRubout_moves hw h hR', fun h => nomatch h⟩
  | unixLineDiscard =>
    obtain ⟨_, _, h⟩ := bind_ok.mp h
    obtain ⟨_, _, h⟩ := bind_ok.mp h
    obtain ⟨s1, h1, h⟩ := bind_ok.mp h
    apply gentle
    obtain ⟨f1, f2, _⟩ := repaint_fields h1
    apply front
    · rw [← pure_ok.mp h]; exact f2
    · rw [← pure_ok.mp h]; exact f1
  | clearScreen =>
    obtain ⟨s1, h1, h⟩ := bind_ok.mp h
    refine ⟨.stays ?_, fun h => nomatch h⟩
    have f := repaintAll_start h1
    rw [← pure_ok.mp h]
    exact f
  | repaintOnNewline =>
    obtain ⟨s1, h1, h⟩ := bind_ok.mp h
    refine ⟨.stays ?_, fun h => nomatch h⟩
    have f := repaintAll_start h1
    rw [← pure_ok.mp h]
    exact f
  | quotedInsert =>
    refine ⟨?_, fun h => nomatch h⟩
    change cmdQuotedInsert E s = .ok p at h
    unfold cmdQuotedInsert at h
    dsimp only at h
    cases hg : getKey (s.emit .cursorOn) with
    | mk k s2 =>
    obtain ⟨rest, e2⟩ := getKey_state hg
    rw [hg] at h
    have v2 : s2.viewStart = s.viewStart := by rw [e2]; rfl
    have c2 : s2.cursor = s.cursor := by rw [e2]; rfl
    cases k with
    | none =>
      have hp : p.1 = s2.emit .cursorOff := by rw [← pure_ok.mp h]
      rw [hp]
      exact .stays v2
    | some key =>
      obtain ⟨q, h1, h⟩ := bind_ok.mp h
      have hp : p.1 = q.1.emit .cursorOff := by rw [← pure_ok.mp h]
      rw [hp] at hR' ⊢
      have hV2 : InView E s2 := by rw [e2]; exact hV.congr
      exact ((selfInsert_moves hw h1 (hR'.congr rfl rfl) hV2).1.of_state v2 c2).emit
  | yank =>
    refine ⟨?_, fun h => nomatch h⟩
    change cmdYank E s = .ok p at h
    unfold cmdYank at h
    split at h
    · cases h; exact .stays rfl
    · obtain ⟨s1, h1, h⟩ := bind_ok.mp h
      have hp : p.1 = s1 := by rw [← pure_ok.mp h]
      rw [hp] at hR' ⊢
      exact .under (replace_least hw h1 hR'.noTabs hR'.view)
  | yankWithQuote =>
    refine ⟨?_, fun h => nomatch h⟩
    change cmdYankWithQuote E s = .ok p at h
    unfold cmdYankWithQuote at h
    split at h
    · cases h; exact .stays rfl
    · obtain ⟨s1, h1, h⟩ := bind_ok.mp h
      have hp : p.1 = s1 := by rw [← pure_ok.mp h]
      rw [hp] at hR' ⊢
      exact .under (replace_least hw h1 hR'.noTabs hR'.view)
  | swapChar => exact gentle (swapChar_tight hw h hR hV (hU (.inr rfl)))
  | backwardWord =>
    apply gentle
    change cmdBackwardWord E s = .ok p at h
    unfold cmdBackwardWord at h
    obtain ⟨_, _, h⟩ := bind_ok.mp h
    obtain ⟨s1, h1, h⟩ := bind_ok.mp h
    obtain ⟨f1, f2, _⟩ := repaint_fields h1
    rw [← pure_ok.mp h]
    refine tight_left f2 (f1.trans ?_)
    show (if _ then _ else _ : St).viewStart = _
    split <;> rfl
  | forwardWord =>
    apply gentle
    change cmdForwardWord E s = .ok p at h
    unfold cmdForwardWord at h
    obtain ⟨_, _, h⟩ := bind_ok.mp h
    obtain ⟨w, h1, h⟩ := bind_ok.mp h
    split at h
    · obtain ⟨s1, h2, h⟩ := bind_ok.mp h
      rw [← pure_ok.mp h]
      exact tight_stays (same_fields (puts_same h2).1).1
    · rename_i hge
      obtain ⟨s1, h2, h⟩ := bind_ok.mp h
      have hp : p.1 = s1 := by rw [← pure_ok.mp h]
      rw [hp] at hR' ⊢
      obtain ⟨b0, b1, b2, hww⟩ := widthBetween_columns h1
      obtain ⟨f1, f2, f3, f4, _, f6, _⟩ := repaint_fields h2
      have hT := noTabs_same f6 hR'.noTabs
      have hm := repaint_mojis h2 hT
      replace hm : s1.mojis = s.mojis := hm
      have hvw : s1.viewWidth = s.viewWidth := by
        have := viewWidth_eq f3 f4
        exact this
      refine ⟨.under (reset_least hw h2 hR'.noTabs hR'.view), fun hs => ?_⟩
      have := hs.2
      rw [← columns_across, between_congr hm, hvw, f2] at this
      replace this : columns E.cfg (s.between s.viewStart (forwardWordPos s.buf s.cursor.toNat : Nat)) < s.viewWidth := this
      omega
  | undo => exact ⟨undo_moves hw h hR', fun h => nomatch h⟩
  | previousHistory =>
    refine ⟨?_, fun h => nomatch h⟩
    change cmdPreviousHistory E s = .ok p at h
    unfold cmdPreviousHistory at h
    split at h
    · cases h; exact .stays rfl
    · split at h
      · cases h; exact .stays rfl
      · obtain ⟨s2, h1, h⟩ := bind_ok.mp h
        obtain ⟨m, e⟩ := saveModified_state h1
        have hst : ∃ i j, ({ s2 with histPtr := s2.histPtr - 1 } : St) = { s with histPtr := i, modHist := j } := by
          rw [e]
          split
          · exact ⟨_, _, rfl⟩
          · exact ⟨_, _, rfl⟩
        obtain ⟨i, j, e2⟩ := hst
        rw [e2] at h
        exact (showHistory_moves hw h hR' hV.low).of_state rfl rfl
  | nextHistory =>
    refine ⟨?_, fun h => nomatch h⟩
    change cmdNextHistory E s = .ok p at h
    unfold cmdNextHistory at h
    split at h
    · cases h; exact .stays rfl
    · split at h
      · cases h; exact .stays rfl
      · obtain ⟨s2, h1, h⟩ := bind_ok.mp h
        obtain ⟨m, e⟩ := saveModified_state h1
        rw [e] at h
        exact (showHistory_moves hw h hR' hV.low).of_state rfl rfl
  | isearchBackward => exact ⟨(isearch_moves hw _ _ _ h hR').of_state rfl rfl, fun h => nomatch h⟩
  | selfInsert k =>
    obtain ⟨a, b⟩ := selfInsert_moves hw h hR' hV
    exact ⟨a, fun _ _ hk => b (hk k rfl)⟩
  | completion P =>
    refine ⟨?_, fun h => nomatch h⟩
    rcases cmdComplete_ok h with rfl | rfl | ⟨t, s1, h1, rfl⟩ | ⟨pos, t, s1, -, -, h1, rfl⟩
    · exact .stays rfl
    · exact .stays rfl
    · have f := repaintAll_start h1
      exact .stays f
    · exact .under (replace_least hw h1 hR'.noTabs hR'.view)
  | custom f => cases hb

theorem resize_least (hw : ∀ m : Moji, 0 ≤ m.width E.cfg) {n : Int} (h : onResize E s n = .ok s') (hR : Spacious E.cfg s') :
    Least E.cfg s' (behind s') := by
  unfold onResize repaintLastLine at h
  dsimp only at h
  have hc : ∀ (t : St) (x : Tok), (resetViewStart E t).emit x = resetViewStart E (t.emit x) := fun _ _ => rfl
  have hc2 : ∀ (t : St) (x : Nat), ({ resetViewStart E t with promptN := x } : St) =
    resetViewStart E { t with promptN := x } := fun _ _ => rfl
  split at h
  · rw [hc, hc] at h
    exact reset_least hw h hR.noTabs hR.view
  · rw [hc, hc2, hc] at h
    exact reset_least hw h hR.noTabs hR.view

/-! ## Sessions -/

theorem C67_start (hw : ∀ m : Moji, 0 ≤ m.width E.cfg) (h : startSt E w = .ok s) (hR : Spacious E.cfg s) :
    Least E.cfg s (behind s) := by
  unfold startSt at h
  obtain ⟨q, h1, h⟩ := bind_ok.mp h
  obtain ⟨s2, h2, h⟩ := bind_ok.mp h
  have hp : s = s2.emit .cursorOn := (pure_ok.mp h).symm
  have := reset_least hw h2 (by rw [hp] at hR; exact hR.noTabs) (by rw [hp] at hR; exact hR.view)
  rw [hp]
  exact ⟨this.low, this.fits, this.less⟩

/-- What one step of a session does. -/
theorem step_moves (hw : ∀ m : Moji, 0 ≤ m.width E.cfg) (hb : BuiltinKeys E) (h : step E s = .ok (s', none)) (hV : InView E s)
    (hR : Spacious E.cfg s) (hR' : Spacious E.cfg s') :
    (∀ n rest, s.input = .resize n :: rest → Least E.cfg s' (behind s')) ∧
    (∀ k rest, s.input = .key k :: rest →
      ((lookupCommand E k = .forwardChar ∨ lookupCommand E k = .swapChar) →
        s.viewWidth ≤ across E.cfg s s.viewStart (s.cursor + 1) → NoWider E.cfg s) →
      Scrolls E.cfg s s' ∧ (Gentle (lookupCommand E k) = true → (lookupCommand E k = .forwardChar → s.cursor < s.len) →
        (∀ k', lookupCommand E k = .selfInsert k' → Apart E.cfg s k') → StillSeen E.cfg s s' → s'.viewStart = s.viewStart)) := by
  constructor
  · intro n rest hi
    rw [step, hi] at h
    obtain ⟨s1, h1, h⟩ := bind_ok.mp h
    cases h
    exact resize_least hw h1 hR'
  · intro k rest hi hU
    rw [step, hi] at h
    replace h : execCmd E (lookupCommand E k) { s.emit .await with input := rest } = .ok (s', none) := h
    unfold execCmd at h
    obtain ⟨q, h1, h⟩ := bind_ok.mp h
    have hq : q.2 = .cont ∧ s' = q.1.emit .cursorOn := by
      obtain ⟨q, rc⟩ := q
      cases rc with
      | cont => cases h; exact ⟨rfl, rfl⟩
      | enter => obtain ⟨_, _, h⟩ := bind_ok.mp h; cases h
      | abort => obtain ⟨_, _, h⟩ := bind_ok.mp h; cases h
      | intr => obtain ⟨_, _, h⟩ := bind_ok.mp h; cases h
    obtain ⟨hq, rfl⟩ := hq
    obtain ⟨a, b⟩ := call_moves hw (BuiltinKeys.builtin hb k) h1 hV.congr (hR.congr rfl rfl) (hR'.congr rfl rfl) hU
    have a' : Scrolls E.cfg s q.1 := a.of_state rfl rfl
    exact ⟨a'.emit, b⟩

theorem Spec.Fine.roomy (h : Fine E s) : Spacious E.cfg s where
  tabs c hc p e := h.tabs p (List.mem_map.mpr ⟨c, hc, e⟩)
  view := h.view
  narrow x hx := by
    rw [columnsOf_mojis] at hx
    obtain ⟨m, hm, rfl⟩ := List.mem_map.mp hx
    exact h.narrow m hm

/-- In a session: after a resize the line is scrolled as far as the unit under the cursor requires; a command moves the window
only as `Scrolls` says; motions, deletions and typing leave it where it is if the cursor is still inside. -/
theorem C67_partial (hw : ∀ m : Moji, 0 ≤ m.width E.cfg) (hb : BuiltinKeys E) (hs : Steady E w) (h : Reachable E w s)
    (hst : step E s = .ok (s', none)) :
    (∀ n rest, s.input = .resize n :: rest → Least E.cfg s' (behind s')) ∧
    (∀ k rest, s.input = .key k :: rest →
      (lookupCommand E k = .forwardChar → s.viewWidth ≤ across E.cfg s s.viewStart (s.cursor + 1) → NoWider E.cfg s) →
      Scrolls E.cfg s s' ∧ (Gentle (lookupCommand E k) = true → (lookupCommand E k = .forwardChar → s.cursor < s.len) →
        (∀ k', lookupCommand E k = .selfInsert k' → Apart E.cfg s k') → StillSeen E.cfg s s' → s'.viewStart = s.viewStart)) := by
  have hR' := (hs.fine _ (.step h hst)).roomy
  constructor
  · intro n rest hi
    rw [step, hi] at hst
    obtain ⟨s1, h1, h2⟩ := bind_ok.mp hst
    cases h2
    exact resize_least hw h1 hR'
  · intro k rest hi hU
    have hV : InView E s := session_inView (lit := mute) ⟨hw, fun _ => rfl, fun _ => rfl, fun _ => rfl, fun _ => rfl, fun _ _ => rfl⟩ hb hs h (by rw [hi]; simp [noResize])
    refine (step_moves hw hb hst hV (hs.fine _ h).roomy hR').2 k rest hi fun hc hge => ?_
    rcases hc with hc | hc
    · exact hU hc hge
    · obtain ⟨n, hn⟩ := hs.swap _ _ _ h hi hc
      intro a c h1 h2
      rw [columnsOf_mojis] at h1 h2
      obtain ⟨m1, k1, rfl⟩ := List.mem_map.mp (List.mem_of_getElem? h1)
      obtain ⟨m2, k2, rfl⟩ := List.mem_map.mp (List.mem_of_getElem? h2)
      rw [hn _ k1, hn _ k2]
      exact Int.le_refl _

/-- The line fits into the view. -/
def Spec.AllFits (C : Cfg) (s : St) : Prop := across C s 0 s.len < s.viewWidth

theorem Spec.AllFits.roomy (hw : ∀ m : Moji, 0 ≤ m.width E.cfg) (hf : AllFits E.cfg s) (ht : ∀ c ∈ s.buf, ∀ p, c.moji ≠ .tab p) :
    Spacious E.cfg s := by
  unfold AllFits at hf
  rw [across_acr] at hf
  have hn := columnsOf_nonneg hw s
  refine ⟨ht, Int.lt_of_le_of_lt (acr_nonneg hn _ _) hf, fun x hx => ?_⟩
  obtain ⟨i, hi⟩ := List.getElem?_of_mem hx
  have hl := (List.getElem?_eq_some_iff.mp hi).1
  have hlen := columnsOf_length E.cfg s
  have h1 := acr_succ (Nat.le_refl i) hi
  rw [acr_self _ (Nat.le_refl _)] at h1
  have h2 := acr_right hn (a := i) (b := i + 1) (c := s.len.toNat) (by omega)
  have h3 := acr_mono hn (a := i) (b := s.len.toNat) (j := (0 : Int).toNat) (by simp)
  omega

theorem Spec.Least.whole {e : Int} (hw : ∀ m : Moji, 0 ≤ m.width E.cfg) (h : Least E.cfg s e) (hf : AllFits E.cfg s) (he : e ≤ s.len) :
    s.viewStart = 0 := by
  have h0 := h.low
  rcases Int.lt_or_le 0 s.viewStart with hv | hv
  · exfalso
    have h1 := h.less 0 (by omega) hv
    unfold AllFits at hf
    rw [across_acr] at hf h1
    have := acr_right (columnsOf_nonneg hw s) (a := (0 : Int).toNat) (b := e.toNat) (c := s.len.toNat) (by omega)
    omega
  · omega

/-- A line that fits is not scrolled further to the right. -/
theorem Spec.Scrolls.whole (hw : ∀ m : Moji, 0 ≤ m.width E.cfg) (h : Scrolls E.cfg s s') (hf : AllFits E.cfg s') (hc : s'.cursor ≤ s'.len)
    : s'.viewStart ≤ max 0 s.viewStart := by
  cases h with
  | stays h => omega
  | left h1 h2 => omega
  | extended h1 h2 => omega
  | under h => have := h.whole hw hf (by unfold behind; omega); omega
  | edge h => have := h.whole hw hf hc; omega

/-- As long as the line without tabs fits it is shown from its beginning. -/
theorem C67_whole_partial (hw : ∀ m : Moji, 0 ≤ m.width E.cfg) (hb : BuiltinKeys E) (hc : 0 ≤ w.cursor) (h : Reachable E w s)
    (hf : ∀ t, Reachable E w t → AllFits E.cfg t) (ht : ∀ t, Reachable E w t → ∀ c ∈ t.buf, ∀ p, c.moji ≠ .tab p) :
    s.viewStart = 0 := by
  induction h with
  | start h =>
    have hC := Reachable.start h
    exact (C67_start hw h ((hf _ hC).roomy hw (ht _ hC))).whole hw (hf _ hC) (by unfold behind; omega)
  | @step s s' h hst ih =>
    have hC := Reachable.step h hst
    have hR := (hf _ h).roomy hw (ht _ h)
    have hR' := (hf _ hC).roomy hw (ht _ hC)
    obtain ⟨_, i1, i2⟩ := C02_partial hb hc h
    obtain ⟨i3, _, i5⟩ := C02_partial hb hc hC
    have i2 : s.cursor ≤ s.len := i2
    have i5 : s'.cursor ≤ s'.len := i5
    have key : ∀ e : Int, e ≤ s.len → across E.cfg s s.viewStart e < s.viewWidth := by
      intro e he
      have := hf _ h
      unfold AllFits at this
      rw [ih]
      rw [across_acr] at this ⊢
      have := acr_right (columnsOf_nonneg hw s) (a := (0 : Int).toNat) (b := e.toNat) (c := s.len.toNat) (by omega)
      omega
    have hV : InView E s := ⟨by omega, i1, i2, by rw [columns_across]; exact key _ i2⟩
    obtain ⟨h1, h2⟩ := step_moves hw hb hst hV hR hR'
    cases hi : s.input with
    | nil => rw [step, hi] at hst; cases hst
    | cons ev rest =>
      cases ev with
      | err e => rw [step, hi] at hst; cases hst
      | resize n => exact (h1 n rest hi).whole hw (hf _ hC) (by unfold behind; omega)
      | key k =>
        have hM := (h2 k rest hi fun _ hge => by
          intro a c ha hb'
          have hlen := columnsOf_length E.cfg s
          have := (List.getElem?_eq_some_iff.mp ha).1
          have := key (s.cursor + 1) (by omega)
          omega).1
        have := hM.whole hw (hf _ hC) i5
        omega

/-! ## Examples -/

namespace Example

/-- `abcdef`, Home, and five times to the right, with room for four characters. -/
def walk : World where
  termWidth := 10
  input := keys ["a", "b", "c", "d", "e", "f", "\x01", "\x06", "\x06", "\x06", "\x06", "\x06", "\x02", "\x02", "\x02", "\x02", "\x02"]

theorem walk_steady : Steady (env plain) walk :=
  steadyCheck_ok (k := 1) (defaultKeys_builtin plain) (by decide +kernel)

/-- The window follows the cursor to the right … -/
example : look (after (env plain) walk 11) = .inr (["a", "b", "c", "d", "e", "f"].map b, 4, 0) ∧
    look (after (env plain) walk 12) = .inr (["a", "b", "c", "d", "e", "f"].map b, 5, 1) := by decide +kernel

/-- … stays where it is when the cursor goes back … -/
example : look (after (env plain) walk 16) = .inr (["a", "b", "c", "d", "e", "f"].map b, 1, 1) := by decide +kernel

/-- … and follows it to the left. -/
example : look (after (env plain) walk 17) = .inr (["a", "b", "c", "d", "e", "f"].map b, 0, 0) := by decide +kernel

end Example

/-! ## Refutations -/

open Example

/-- Lines with tabs. -/
theorem C67_tabs_partial {lit : Bytes → Row → Row} (hS : Sane E lit) (hb : BuiltinKeys E) (hw : Unscrolled E w)
    (h : Reachable E w s) (hk : noResize s.input ≠ []) : s.viewStart = 0 := by
  obtain ⟨t, -, hr⟩ := session_entire hS hb hw h hk
  exact (hr ⟨0, fun _ => none, 0⟩).start

/-- A line that fits need not be shown from its beginning: `abcdefg` and Backspace three times; of `abcd`, which fits, the `d` is shown. -/
theorem C67_refuted_fits : ∃ s, Reachable (env plain) { termWidth := 10, input := keys ["a", "b", "c", "d", "e", "f", "g", "\x08", "\x08", "\x08"] } s ∧
    AllFits plain s ∧ 0 < s.viewStart := by
  obtain ⟨s, h1, h2⟩ := gets_ok (E := env plain) (w := { termWidth := 10, input := keys ["a", "b", "c", "d", "e", "f", "g", "\x08", "\x08", "\x08"] })
    (n := 10) (p := fun s => decide (across plain s 0 s.len < s.viewWidth ∧ 0 < s.viewStart)) (by decide +kernel)
  obtain ⟨a1, a2⟩ := of_decide_eq_true h2
  exact ⟨s, h1, a1, a2⟩

/-- Deleting a word moves the window although the cursor is still inside: `abc def` and Ctrl-W. -/
theorem C67_refuted_rubout : ∃ s s', Reachable (env plain) { termWidth := 10, input := keys ["a", "b", "c", " ", "d", "e", "f", "\x17"] } s ∧
    step (env plain) s = .ok (s', none) ∧ StillSeen plain s s' ∧ s'.viewStart ≠ s.viewStart := by
  obtain ⟨s, h1, h2⟩ := gets_ok (E := env plain) (w := { termWidth := 10, input := keys ["a", "b", "c", " ", "d", "e", "f", "\x17"] })
    (n := 7) (p := fun s =>
    match step (env plain) s with
    | .ok (s', none) => decide (s.viewStart ≤ s'.cursor ∧ across plain s' s.viewStart s'.cursor < s'.viewWidth ∧ s'.viewStart ≠ s.viewStart)
    | _ => false) (by decide +kernel)
  split at h2
  · rename_i s' hs
    obtain ⟨a1, a2, a3⟩ := of_decide_eq_true h2
    exact ⟨s, s', h1, hs, ⟨a1, a2⟩, a3⟩
  · cases h2

/-- The wide session: `abcあ`, Home and three times to the right; then once more. -/
def Example.stride : World where
  termWidth := 10
  input := keys ["a", "b", "c", "あ", "\x01", "\x06", "\x06", "\x06", "\x06"]

/-- Over a wide character `ForwardChar` may scroll by two characters where one would do. -/
theorem C67_refuted_wide : ∃ s s', Reachable (env plain) stride s ∧ step (env plain) s = .ok (s', none) ∧ s.viewStart = 0 ∧
    s'.viewStart = 2 ∧ across plain s' 1 s'.cursor < s'.viewWidth ∧ ¬ Scrolls plain s s' := by
  obtain ⟨s, h1, h2⟩ := gets_ok (E := env plain) (w := stride) (n := 8) (p := fun s =>
    match step (env plain) s with
    | .ok (s', none) => decide (s.viewStart = 0 ∧ s'.viewStart = 2 ∧ s'.cursor = 4 ∧ behind s' = 4 ∧ across plain s' 1 4 < s'.viewWidth)
    | _ => false) (by decide +kernel)
  split at h2
  · rename_i s' hs
    obtain ⟨a1, a2, a3, a4, a5⟩ := of_decide_eq_true h2
    refine ⟨s, s', h1, hs, a1, a2, by rw [a3]; exact a5, fun hM => ?_⟩
    cases hM with
    | stays h => omega
    | left h1 h2 => omega
    | extended h1 h2 => omega
    | under h => have := h.less 1 (by omega) (by omega); rw [a4] at this; omega
    | edge h => have := h.less 1 (by omega) (by omega); rw [a3] at this; omega
  · cases h2

end Readline
