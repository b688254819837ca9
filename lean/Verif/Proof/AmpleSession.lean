import Verif.Proof.AmpleCall
import Verif.Proof.UndoCall
/-!
# Sessions whose line always fits
-/
namespace Readline
open Spec

variable {C : Cfg} {E : Env} {lit : Bytes → Row → Row} {s s1 s' : St} {w : World}

/-! ## `SwapChar` -/

theorem columns_swapAt (C : Cfg) (l : List Moji) (i : Nat) : columns C (swapAt l i) = columns C l := by
  by_cases h : i + 1 < l.length
  · obtain ⟨a, b, h1, h2⟩ := Ed.swapAt_eq h
    have h3 : l = l.take i ++ [a, b] ++ l.drop (i + 2) := by
      rw [← h1, ← List.drop_drop, List.append_assoc, List.take_append_drop, List.take_append_drop]
    rw [h2]
    conv => rhs; rw [h3]
    simp only [columns_append, columns]
    omega
  · unfold swapAt
    rw [List.getElem?_eq_none (i := i + 1) (by omega)]
    cases l[i]? <;> rfl

theorem swap_upholds (hS : Sane E lit) {sw : St} {i : Nat} {c : Int} (hA : Ample E s) (hT : ∀ p, Moji.tab p ∉ s.mojis)
    (w1 : sw.mojis = swapAt s.mojis i) (hi : (i : Int) + 2 ≤ c)
    (w2 : sw.viewStart = 0 ∧ sw.cursor = c ∧ sw.topColumn = s.topColumn ∧ sw.termWidth = s.termWidth ∧
      sw.out = s.out ++ [.gotoCol (s.topColumn + 1)])
    (h : puts E sw sw.viewStart sw.cursor = .ok s') : Upholds E lit s s' := by
  have w3 : sw.len = s.len := by rw [← mojis_length, ← mojis_length, w1, swapAt_length]
  have hT' : ∀ p, Moji.tab p ∉ sw.mojis := by rw [w1]; exact fun p hp => hT p (swapAt_mem hp)
  obtain ⟨⟨b, o, e⟩, hm, ⟨c0, c1, c2⟩, hd⟩ := puts_row (lit := lit) (St.noTabs_aligned (E := E) hT') h
  rw [w2.2.1] at c1 c2
  rw [w2.1, w2.2.1] at hd
  have q1 : s'.viewStart = 0 := by rw [e]; exact w2.1
  have q2 : s'.topColumn = s.topColumn := by rw [e]; exact w2.2.2.1
  have q4 : s'.termWidth = s.termWidth := by rw [e]; exact w2.2.2.2.1
  have q5 : s'.cursor = c := by rw [e]; exact w2.2.1
  have q7 : s'.len = s.len := by rw [← w3, ← mojis_length, ← mojis_length, hm]
  have hd' : Draws E.cfg lit s s' (fun r => Row.puts E.cfg { r with col := s.topColumn } (sw.between 0 c)) := by
    obtain ⟨t, e2, hr⟩ := hd
    refine ⟨[.gotoCol (s.topColumn + 1)] ++ t, by rw [e2, w2.2.2.2.2, List.append_assoc], fun r => ?_⟩
    rw [run_append, hr]
    show Row.puts E.cfg { r with col := s.topColumn + 1 - 1 } _ = _
    rw [Int.add_sub_cancel]
  have hsp : s.mojis = s.between 0 c ++ s.mojis.drop c.toNat := by
    rw [between_zero, List.take_append_drop]
  have hsp' : sw.mojis = sw.between 0 c ++ s.mojis.drop c.toNat := by
    rw [between_zero]
    conv => lhs; rw [← List.take_append_drop c.toNat sw.mojis]
    rw [w1, swapAt_drop _ _ _ (by omega)]
  have hcol : columns E.cfg (sw.between 0 c) = columns E.cfg (s.between 0 c) := by
    have h1 := columns_swapAt E.cfg s.mojis i
    rw [← w1, hsp', columns_append] at h1
    conv at h1 => rhs; rw [hsp, columns_append]
    omega
  refine Draws.upholds hd' fun r hr => ⟨⟨q1, by omega, by omega, ?_, ?_⟩, ?_⟩
  · rw [puts_col, q2, q5, between_congr hm]
  · rw [q2, hm, hsp']
    have hc := hr.cells
    rw [hsp] at hc
    exact printOver (C := E.cfg) hS.width (r := { r with col := s.topColumn }) (start := s.topColumn)
      (a := []) (c := sw.between 0 c) (e := s.between 0 c) (d := s.mojis.drop c.toNat) (by simp [columns]) hc hcol
  · apply puts_high (hS.wide _)
    · show r.high ≤ _; omega
    · show s.topColumn + _ ≤ _
      rw [hcol, q4, ← St.lim]
      have := hA.between hS 0 c
      omega

theorem swapChar_upholds (hS : Sane E lit) (hv : s.viewStart = 0) (hA : Ample E s) (hT : ∀ p, Moji.tab p ∉ s.mojis)
    {p : St × Result} (h : cmdSwapChar E s = .ok p) : Upholds E lit s p.1 := by
  unfold cmdSwapChar at h
  split at h
  · split at h
    · cases h; exact Upholds.refl
    · obtain ⟨two, h1, h⟩ := bind_ok.mp h
      obtain ⟨s1, h2, h⟩ := bind_ok.mp h
      have hp : p.1 = s1 := by rw [← pure_ok.mp h]
      rw [hp]
      refine swap_upholds (i := (s.cursor - 2).toNat) (c := s.cursor) hS hA hT ?_ (by omega) ?_ h2
      · exact swapAt_map _ _ _
      · exact ⟨hv, rfl, rfl, rfl, rfl⟩
  · split at h
    · cases h; exact Upholds.refl
    · obtain ⟨two, h1, h⟩ := bind_ok.mp h
      obtain ⟨w, h0, h⟩ := bind_ok.mp h
      obtain ⟨s1, h2, h⟩ := bind_ok.mp h
      have hp : p.1 = s1 := by rw [← pure_ok.mp h]
      rw [hp]
      obtain ⟨_, _, _, hw⟩ := widthBetween_columns h0
      replace hw : w = columns E.cfg (s.between s.viewStart (s.cursor + 1)) := hw
      rw [hv] at hw
      have := hA.between hS 0 (s.cursor + 1)
      rw [if_neg (by show ¬ w ≥ s.viewWidth; omega)] at h2
      refine swap_upholds (i := (s.cursor - 1).toNat) (c := s.cursor + 1) hS hA hT ?_ (by omega) ?_ h2
      · exact swapAt_map _ _ _
      · exact ⟨hv, rfl, rfl, rfl, rfl⟩

/-! ## The incremental search -/

/-- The row shows the whole line if the terminal cursor stood behind the prompt. -/
def LaysAt (E : Env) (lit : Bytes → Row → Row) (s s' : St) : Prop :=
  ∃ t, s'.out = s.out ++ t ∧ ∀ r, r.col = s.topColumn → Entire E s' (Row.run E.cfg lit r t) ∧
    (Row.run E.cfg lit r t).high ≤ max r.high (s'.termWidth - 3)

theorem Paints.laysAt (h : Lays E lit s s') : LaysAt E lit s s' := by
  obtain ⟨t, e, hr⟩ := h
  exact ⟨t, e, fun r _ => hr r⟩

theorem isearch_lays (hS : Sane E lit) (hP : E.predictColor.1 = []) (n : Nat) (it : ISt) (s : St) {p : St × Result}
    (h : isearchLoop E n it s = .ok p) (hv : s.viewStart = 0) (hAs : Ample E s) (hA : Ample E p.1)
    (hE : ErrorsLast s.input) (hk : noResize p.1.input ≠ []) : LaysAt E lit s p.1 ∧ p.1.termWidth = s.termWidth := by
  induction n generalizing it s with
  | zero => cases h
  | succ n ih =>
    unfold isearchLoop at h
    obtain ⟨s1, h1, h⟩ := bind_ok.mp h
    obtain ⟨⟨o, e1⟩, t1, o1, r1⟩ := search_draws hS (Int.le_of_lt (hAs.view hS)) h1
    cases hg : getKey ((eraseline s1).emit .cursorOn) with
    | mk k s2 =>
    obtain ⟨rest, e2⟩ := getKey_state hg
    obtain ⟨g1, g2⟩ := getKey_input hg
    dsimp only at h
    rw [hg] at h
    have hi : ((eraseline s1).emit .cursorOn).input = s.input := by
      show s1.input = s.input
      rw [e1]
    rw [hi] at g1 g2
    -- the state in which the key is looked at
    obtain ⟨s3, hs3⟩ : ∃ s3, s2.emit .cursorOff = s3 := ⟨_, rfl⟩
    have hs : ∃ t, s3 = { s with input := s2.input, out := s.out ++ t } ∧ ∀ r, r.col = s.topColumn →
        (Row.run E.cfg lit r t).high ≤ max r.high (s.termWidth - 3) := by
      refine ⟨t1 ++ [.eraseEol, .cursorOn, .await, .cursorOff], ?_, ?_⟩
      · rw [← hs3, e2]
        show ({ s1 with input := rest, out := s1.out ++ [.eraseEol] ++ [.cursorOn] ++ [.await] ++ [.cursorOff] } : St) = _
        rw [o1, e1]
        simp
      · intro r hr
        rw [run_append]
        exact r1 r hr
    obtain ⟨t, e3, hr3⟩ := hs
    cases k with
    | none =>
      have hp : p.1 = s2 := by rw [← pure_ok.mp h]
      exact absurd rfl (g2 hE (by rw [← hp]; exact hk))
    | some key =>
    have hv3 : s3.viewStart = 0 := by rw [e3]; exact hv
    have hA3 : Ample E s3 := by rw [e3]; exact hAs
    have hE3 : ErrorsLast s3.input := by rw [e3]; exact hE.sub g1
    -- what remains is done in a state whose row starts behind the prompt
    have glue : ∀ {q : St × Result}, (LaysAt E lit (gotoHead s3) q.1 ∧ q.1.termWidth = s3.termWidth) →
        LaysAt E lit s q.1 ∧ q.1.termWidth = s.termWidth := by
      intro q hq
      obtain ⟨⟨t', e', r'⟩, hw⟩ := hq
      have hw' : q.1.termWidth = s.termWidth := by rw [hw, e3]
      refine ⟨⟨t ++ [.gotoCol (s.topColumn + 1)] ++ t', ?_, ?_⟩, hw'⟩
      · rw [e']
        show s3.out ++ [.gotoCol (s3.topColumn + 1)] ++ t' = _
        rw [e3]
        simp
      · intro r hr
        rw [run_append, run_append]
        have := r' (Row.run E.cfg lit (Row.run E.cfg lit r t) [.gotoCol (s.topColumn + 1)]) (by
          show s.topColumn + 1 - 1 = s3.topColumn
          rw [e3]; show _ = s.topColumn; omega)
        refine ⟨this.1, ?_⟩
        have h4 := this.2
        have h5 : (Row.run E.cfg lit (Row.run E.cfg lit r t) [.gotoCol (s.topColumn + 1)]).high =
          (Row.run E.cfg lit r t).high := rfl
        have h6 := hr3 r hr
        rw [h5] at h4
        rw [hw'] at h4 ⊢
        omega
    have again : ∀ it', isearchLoop E n it' (gotoHead s3) = .ok p →
        LaysAt E lit s p.1 ∧ p.1.termWidth = s.termWidth := fun it' h' =>
      glue (ih it' (gotoHead s3) h' hv3 hA3 hE3)
    dsimp only at h
    rw [hs3] at h
    split at h
    · exact again _ h
    split at h
    · obtain ⟨s4, h4, h⟩ := bind_ok.mp h
      have hp : p.1 = s4 := by rw [← pure_ok.mp h]
      apply glue
      rw [hp] at hA ⊢
      refine ⟨Paints.laysAt (replace_lays hS hP (s := gotoHead s3) (Silent.refl.of_out) h4 hA), ?_⟩
      exact (replace_fields h4).2.1
    split at h
    · obtain ⟨nw, h4, h⟩ := bind_ok.mp h
      obtain ⟨s5, h5, h⟩ := bind_ok.mp h
      obtain ⟨s6, h6, h⟩ := bind_ok.mp h
      have hp : p.1 = s6 := by rw [← pure_ok.mp h]
      rw [hp] at hA ⊢
      have hS' : Sane { E with predictColor := ([], []) } lit :=
        ⟨hS.width, hS.nothing, hS.nothing, hS.bell, hS.nothing, hS.high⟩
      have hg4 : getView2 { E with predictColor := ([], []) } s3 = .ok nw := by
        unfold getView2 getView at h4 ⊢
        obtain ⟨q, h7, h4⟩ := bind_ok.mp h4
        obtain ⟨v, h8, h7⟩ := bind_ok.mp h7
        obtain ⟨v2, h9, h4⟩ := bind_ok.mp h4
        have k8 : slice s3 s3.buf s3.viewStart s3.len = .ok v := slice_any h8
        have k9 : slice s3 s3.buf s3.viewStart s3.cursor = .ok v2 := slice_any h9
        rw [k8]
        rw [← pure_ok.mp h7] at h4
        show (do
          let _ ← slice s3 s3.buf s3.viewStart s3.cursor
          pure (viewLoop E.cfg s3.viewWidth v 0 0) : M (Nat × Int)) = _
        rw [k9]
        exact h4
      have hrep : repaintNoSuffix { E with predictColor := ([], []) } s3 = .ok s6 := by
        unfold repaintNoSuffix
        rw [hg4]
        show (do
          let s ← puts E (gotoHead s3) (gotoHead s3).viewStart ((gotoHead s3).viewStart + nw.1)
          let s ← (pure s : M St)
          let s := eraseline s
          let s := gotoHead s
          puts E s s.viewStart s.cursor) = _
        rw [h5]
        exact h6
      obtain ⟨_, t', e', r'⟩ := repaintNoSuffix_lays hS' rfl hv3 hA3 hrep
      have hw' : s6.termWidth = s.termWidth := by
        rw [(same_fields (repaintNoSuffix_same hrep).1).2.2.2.1, e3]
      refine ⟨⟨t ++ t', ?_, ?_⟩, hw'⟩
      · rw [e', e3]; simp
      · intro r hr
        rw [run_append]
        obtain ⟨h7', h7⟩ := r' (Row.run E.cfg lit r t)
        refine ⟨⟨h7'.start, h7'.low, h7'.high, h7'.col, h7'.cells⟩, ?_⟩
        have h8 := hr3 r hr
        rw [hw'] at h7 ⊢
        show (Row.run E.cfg lit _ t').high ≤ _
        have h9 : (Row.run E.cfg lit (Row.run E.cfg lit r t) t').high ≤ _ := h7
        omega
    split at h
    · obtain ⟨it', h4, h⟩ := bind_ok.mp h
      exact again _ h
    split at h
    · obtain ⟨it', h4, h⟩ := bind_ok.mp h
      exact again _ h
    split at h
    · exact again _ h
    · exact again _ h

/-! ## Every command -/

theorem call_upholds (hS : Sane E lit) (hP : E.predictColor.1 = []) {c : Cmd} (hb : c.builtin = true) {p : St × Result}
    (h : Cmd.call E c s = .ok p) (hr : p.2 = .cont) (hv : s.viewStart = 0) (hc0 : 0 ≤ s.cursor) (ha : s.aligned E)
    (hA : Ample E s) (hA' : Ample E p.1) (hE : ErrorsLast s.input) (hk : noResize p.1.input ≠ [])
    (hsw : c = .swapChar → ∀ p, Moji.tab p ∉ s.mojis) : Upholds E lit s p.1 := by
  cases c with
  | acceptLine =>
    have : p = (s, .enter) := by rw [← pure_ok.mp h]
    rw [this] at hr; cases hr
  | interrupt =>
    have := pure_ok.mp h
    rw [← this] at hr; cases hr
  | beginningOfLine => exact (beginningOfLine_lays hS hP h hA').upholds
  | backwardChar => exact backwardChar_upholds hS hP h hv hA'
  | endOfLine =>
    obtain ⟨t, e, hs⟩ := endOfLine_entire (lit := lit) hS hv hA hc0 (Or.inr ha) h
    exact ⟨t, e, fun r hr => hs r hr.col (ready_entire hS hr)⟩
  | forwardChar => exact forwardChar_upholds hS hP h hv ha hA hA'
  | backwardDeleteChar => exact (backspace_upholds hS hP h hv hA).1
  | deleteChar => exact (deleteChar_lays hS hP h hv hA').upholds
  | deleteOrAbort =>
    change cmdDeleteOrAbort E s = .ok p at h
    unfold cmdDeleteOrAbort at h
    split at h
    · exact (deleteChar_lays hS hP h hv hA').upholds
    · have := pure_ok.mp h
      rw [← this] at hr; cases hr
  | killLine => exact killLine_entire hS h
  | killWholeLine => exact (killWholeLine_lays h).upholds
  | unixWordRubout => exact (wordRubout_lays hS hP h hv hA').upholds
  | unixLineDiscard => exact (lineDiscard_lays hS hP h hA').upholds
  | clearScreen =>
    change cmdClearScreen E s = .ok p at h
    unfold cmdClearScreen at h
    obtain ⟨s1, h1, h⟩ := bind_ok.mp h
    have hp : p.1 = s1 := by rw [← pure_ok.mp h]
    rw [hp] at hA' ⊢
    exact (repaintAll_lays hS hP (s1 := s.emit _) (Silent.refl.literal hS _) hv h1 hA').upholds
  | repaintOnNewline =>
    change cmdRepaintOnNewline E s = .ok p at h
    unfold cmdRepaintOnNewline at h
    obtain ⟨s1, h1, h⟩ := bind_ok.mp h
    have hp : p.1 = s1 := by rw [← pure_ok.mp h]
    rw [hp] at hA' ⊢
    exact (repaintAll_lays hS hP (s1 := s.emit _) (Silent.refl.literal hS _) hv h1 hA').upholds
  | quotedInsert =>
    change cmdQuotedInsert E s = .ok p at h
    unfold cmdQuotedInsert at h
    dsimp only at h
    cases hg : getKey (s.emit .cursorOn) with
    | mk k s2 =>
    obtain ⟨rest, e2⟩ := getKey_state hg
    rw [hg] at h
    have k2 : Upholds E lit s s2 := by
      rw [e2]
      exact ((Upholds.refl.emit .cursorOn fun _ => rfl).emit .await fun _ => rfl).congr
    cases k with
    | none =>
      have hp : p.1 = s2.emit .cursorOff := by rw [← pure_ok.mp h]
      rw [hp]
      exact k2.emit _ fun _ => rfl
    | some key =>
      obtain ⟨q, h1, h⟩ := bind_ok.mp h
      have hp : p.1 = q.1.emit .cursorOff := by rw [← pure_ok.mp h]
      rw [hp] at hA' ⊢
      refine Upholds.emit ?_ _ fun _ => rfl
      obtain ⟨a, b⟩ := selfInsert_upholds hS hP h1 (by rw [e2]; exact hv) (by rw [e2]; exact hA) hA'
      exact k2.trans a b
  | yank =>
    change cmdYank E s = .ok p at h
    unfold cmdYank at h
    split at h
    · cases h; exact Upholds.refl
    · obtain ⟨s1, h1, h⟩ := bind_ok.mp h
      have hp : p.1 = s1 := by rw [← pure_ok.mp h]
      rw [hp] at hA' ⊢
      exact (replace_lays hS hP Silent.refl h1 hA').upholds
  | yankWithQuote =>
    change cmdYankWithQuote E s = .ok p at h
    unfold cmdYankWithQuote at h
    split at h
    · cases h; exact Upholds.refl
    · obtain ⟨s1, h1, h⟩ := bind_ok.mp h
      have hp : p.1 = s1 := by rw [← pure_ok.mp h]
      rw [hp] at hA' ⊢
      exact (replace_lays hS hP Silent.refl h1 hA').upholds
  | swapChar => exact swapChar_upholds hS hv hA (hsw rfl) h
  | backwardWord => exact (backwardWord_lays hS hP h hv hA').upholds
  | forwardWord => exact forwardWord_upholds hS hP h ha hA hA'
  | undo => exact undo_upholds hS hP h hA'
  | previousHistory =>
    change cmdPreviousHistory E s = .ok p at h
    unfold cmdPreviousHistory at h
    split at h
    · cases h; exact Upholds.refl
    · split at h
      · cases h; exact Upholds.refl
      · obtain ⟨s2, h1, h⟩ := bind_ok.mp h
        obtain ⟨m, e⟩ := saveModified_state h1
        have hst : ∃ i j, ({ s2 with histPtr := s2.histPtr - 1 } : St) = { s with histPtr := i, modHist := j } := by
          rw [e]
          split
          · exact ⟨_, _, rfl⟩
          · exact ⟨_, _, rfl⟩
        obtain ⟨i, j, e2⟩ := hst
        rw [e2] at h
        exact (showHistory_upholds hS hP h hA').of_state
  | nextHistory =>
    change cmdNextHistory E s = .ok p at h
    unfold cmdNextHistory at h
    split at h
    · cases h; exact Upholds.refl
    · split at h
      · cases h; exact Upholds.refl
      · obtain ⟨s2, h1, h⟩ := bind_ok.mp h
        obtain ⟨m, e⟩ := saveModified_state h1
        rw [e] at h
        exact (showHistory_upholds hS hP h hA').of_state
  | isearchBackward =>
    obtain ⟨⟨t, e, hs⟩, _⟩ := isearch_lays hS hP _ _ _ h hv hA hA' hE hk
    refine ⟨[.gotoCol (s.topColumn + 1)] ++ t, ?_, fun r _ => ?_⟩
    · rw [e]; exact List.append_assoc _ _ _
    · rw [run_append]
      have := hs (Row.run E.cfg lit r [.gotoCol (s.topColumn + 1)]) (by
        show s.topColumn + 1 - 1 = s.topColumn; omega)
      exact this
  | selfInsert k => exact (selfInsert_upholds hS hP h hv hA hA').1
  | completion P =>
    rcases cmdComplete_ok h with rfl | rfl | ⟨t, s1, h1, rfl⟩ | ⟨pos, t, s1, -, -, h1, rfl⟩
    · exact Upholds.refl
    · exact Upholds.refl.emit _ hS.bell
    · exact (repaintAll_lays hS hP (s1 := ((s.emit _).emit _).emit _)
        (((Silent.refl.literal hS _).literal hS _).literal hS _) hv h1 hA').upholds
    · exact (replace_lays hS hP Silent.refl h1 hA').upholds
  | custom f => cases hb

/-! ## Steps and sessions -/

theorem resize_lays (hS : Sane E lit) (hP : E.predictColor.1 = []) {n : Int} (h : onResize E s n = .ok s')
    (hA : Ample E s') : Lays E lit s s' := by
  unfold onResize repaintLastLine at h
  dsimp only at h
  have hq : Silent E.cfg lit s ({ s with termWidth := n }.emit .flush) :=
    Silent.emit (s1 := { s with termWidth := n }) (Silent.refl.of_out) .flush fun _ => rfl
  have hc : ∀ (t : St) (x : Tok), (resetViewStart E t).emit x = resetViewStart E (t.emit x) := fun _ _ => rfl
  have hc2 : ∀ (t : St) (x : Nat), ({ resetViewStart E t with promptN := x } : St) =
    resetViewStart E { t with promptN := x } := fun _ _ => rfl
  split at h
  · rw [hc, hc] at h
    exact reset_lays hS hP (hq.literal hS _) h hA
  · rw [hc, hc2, hc] at h
    exact reset_lays hS hP (Silent.literal hS (hq.of_out) _) h hA

theorem step_upholds (hS : Sane E lit) (hP : E.predictColor.1 = []) (hb : BuiltinKeys E) (h : step E s = .ok (s', none))
    (hv : s.viewStart = 0) (hc0 : 0 ≤ s.cursor) (ha : s.aligned E) (hA : Ample E s) (hA' : Ample E s')
    (hE : ErrorsLast s.input) (hk : noResize s'.input ≠ [])
    (hsw : ∀ k rest, s.input = .key k :: rest → lookupCommand E k = .swapChar → ∀ p, Moji.tab p ∉ s.mojis) :
    Upholds E lit s s' := by
  cases hi : s.input with
  | nil => rw [step, hi] at h; cases h
  | cons ev rest =>
    cases ev with
    | err e => rw [step, hi] at h; cases h
    | resize n =>
      rw [step, hi] at h
      obtain ⟨s1, h1, h⟩ := bind_ok.mp h
      cases h
      exact (Paints.silent (resize_lays hS hP h1 hA') (Silent.refl.of_out)).upholds
    | key k =>
      rw [step, hi] at h
      replace h : execCmd E (lookupCommand E k) { s.emit .await with input := rest } = .ok (s', none) := h
      unfold execCmd at h
      obtain ⟨q, h1, h⟩ := bind_ok.mp h
      have hq : q.2 = .cont ∧ s' = q.1.emit .cursorOn := by
        obtain ⟨q, rc⟩ := q
        cases rc with
        | cont => cases h; exact ⟨rfl, rfl⟩
        | enter => obtain ⟨_, _, h⟩ := bind_ok.mp h; cases h
        | abort => obtain ⟨_, _, h⟩ := bind_ok.mp h; cases h
        | intr => obtain ⟨_, _, h⟩ := bind_ok.mp h; cases h
      obtain ⟨hq, rfl⟩ := hq
      refine Upholds.emit ?_ _ fun _ => rfl
      have hk1 := call_upholds hS hP (BuiltinKeys.builtin hb k) h1 hq hv hc0 ha hA hA'
        (hE.sub (by rw [hi]; exact List.sublist_cons_self _ _)) hk (hsw k rest hi)
      obtain ⟨t, e, hr⟩ := hk1
      refine ⟨[.await, .cursorOff] ++ t, ?_, fun r hs => ?_⟩
      · rw [e]
        show s.out ++ [.await] ++ [.cursorOff] ++ t = _
        simp
      · rw [run_append]
        exact hr r (hs.congr)

theorem start_lays (hS : Sane E lit) (hP : E.predictColor.1 = []) (h : startSt E w = .ok s) (hA : Ample E s) :
    Lays E lit { out := w.out } s := by
  unfold startSt at h
  obtain ⟨q, h1, h⟩ := bind_ok.mp h
  obtain ⟨s2, h2, h⟩ := bind_ok.mp h
  have hp : s = s2.emit .cursorOn := (pure_ok.mp h).symm
  obtain ⟨_, _, _, _, ⟨b, u, e⟩, _⟩ := insertString_ok h1
  have hpr : Silent E.cfg lit ({ out := w.out } : St) (promptSt E w) := by
    unfold promptSt
    have h0 := callPrompt_silent (s := { out := w.out }) (s1 := ({ cursor := w.cursor, clip := w.clip, termWidth := w.termWidth, input := w.input, out := w.out, promptN := w.promptN, histPtr := E.histLen } : St))
      hS (Silent.refl.of_out)
    dsimp only
    split
    · exact (h0.literal hS _).of_out
    · split
      · exact (h0.literal hS _).of_out
      · exact h0.of_out
  have hr : Lays E lit { out := w.out } s2 := by
    refine reset_lays hS hP (hpr.of_out ?_) h2 (by rw [hp] at hA; exact hA)
    split
    · show q.1.out = _; rw [e]
    · show q.1.out = _; rw [e]
  obtain ⟨t, e, hr⟩ := hr
  rw [hp]
  refine ⟨t ++ [.cursorOn], ?_, fun r => ?_⟩
  · show s2.out ++ _ = _
    rw [e, List.append_assoc]
  · rw [run_append]
    exact ⟨(hr r).1.congr, (hr r).2⟩

/-- What is assumed of a session:
* the line always fits, however its tabs fall;
* no predictions are shown;
* the only error of the terminal is the end of its input;
* `SwapChar` finds no tabs. -/
structure Spec.Unscrolled (E : Env) (w : World) : Prop where
  ample : ∀ s, Reachable E w s → Ample E s
  predict : E.predictColor.1 = []
  errors : ErrorsLast w.input
  swap : ∀ s k rest, Reachable E w s → s.input = .key k :: rest → lookupCommand E k = .swapChar →
    ∀ p, Moji.tab p ∉ s.mojis

/-- Whenever a key is awaited the row shows the whole line. -/
theorem session_entire (hS : Sane E lit) (hb : BuiltinKeys E) (hw : Unscrolled E w) (h : Reachable E w s)
    (hk : noResize s.input ≠ []) : ∃ t, s.out = w.out ++ t ∧ ∀ r, Entire E s (Row.run E.cfg lit r t) := by
  induction h with
  | start h =>
    obtain ⟨t, e, hr⟩ := start_lays hS hw.predict h (hw.ample _ (.start h))
    exact ⟨t, e, fun r => (hr r).1⟩
  | @step s s' h hst ih =>
    have hin := reachable_input hb h
    obtain ⟨ev, rest, h1, h2⟩ := step_sublist hb hst
    have hsub : s'.input.Sublist s.input := by rw [h1]; exact h2.trans (List.sublist_cons_self _ _)
    obtain ⟨t, e, hr⟩ := ih (noResize_sub hsub hk)
    have hV := hr ⟨0, fun _ => none, 0⟩
    obtain ⟨t', e', hr'⟩ := step_upholds hS hw.predict hb hst hV.start hV.low (reachable_aligned hb h) (hw.ample _ h)
      (hw.ample _ (.step h hst)) (hw.errors.sub hin) hk fun k rest hi => hw.swap _ k rest h hi
    refine ⟨t ++ t', by rw [e', e, List.append_assoc], fun r => ?_⟩
    rw [run_append]
    exact (hr' _ (hr r)).1

end Readline
