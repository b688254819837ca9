import Verif.Proof.VisCall
/-!
# The row through a session
-/
namespace Readline
open Spec

variable {C : Cfg} {E : Env} {lit : Bytes → Row → Row} {s s1 s' : St} {w : World}

/-! ## The incremental search -/

theorem drawLoop_draws {vw w : Int} {ms : List Moji} {s s' : St} (h : drawLoop C vw ms w s = .ok s') :
    ∃ shown, FitsIn C (vw - w) ms shown ∧ (∃ o, s' = { s with out := o }) ∧
      Draws C lit s s' (fun r => r.puts C shown) := by
  induction ms generalizing w s with
  | nil =>
    cases h
    exact ⟨[], ⟨[], rfl, Or.inl rfl, by intro m tail e; cases e⟩, ⟨_, rfl⟩, Draws.refl⟩
  | cons m ms ih =>
    unfold drawLoop at h
    dsimp only at h
    split at h
    · rename_i hge
      cases h
      refine ⟨[], ⟨m :: ms, rfl, Or.inl rfl, ?_⟩, ⟨_, rfl⟩, Draws.refl⟩
      intro m' tail e
      cases e
      simp only [columns]; omega
    · rename_i hlt
      obtain ⟨s1, h1, h⟩ := bind_ok.mp h
      have e1 : s1 = s.emit (.glyph m) := by
        unfold printMoji at h1
        split at h1
        · cases h1
        · cases h1; rfl
      obtain ⟨shown, ⟨rest, r1, r2, r3⟩, ⟨o, e2⟩, hd⟩ := ih h
      refine ⟨m :: shown, ⟨rest, by rw [r1]; rfl, Or.inr ?_, ?_⟩, ⟨o, by rw [e2, e1]; rfl⟩, ?_⟩
      · rcases r2 with r2 | r2
        · subst r2; simp only [columns]; omega
        · show m.width C + columns C shown < _; omega
      · intro m' tail e
        have := r3 m' tail e
        show _ ≤ m.width C + columns C shown + _
        omega
      · have hd0 : Draws C lit s s1 (fun r => r.receive C lit (.glyph m)) := by
          rw [e1]; exact (Draws.refl (s := s)).emit (.glyph m)
        exact (hd0.trans hd).congr fun r => rfl

/-- The row shows `s'` if the terminal cursor stood behind the prompt. -/
def PaintsAt (E : Env) (lit : Bytes → Row → Row) (s s' : St) : Prop :=
  ∃ t, s'.out = s.out ++ t ∧ ∀ r, r.col = s.topColumn → Shows E s' (Row.run E.cfg lit r t) ∧
    (Row.run E.cfg lit r t).high ≤ max r.high (s'.termWidth - 3)

theorem Paints.at (h : Repaints E lit s s') : PaintsAt E lit s s' := by
  obtain ⟨t, e, hr⟩ := h
  exact ⟨t, e, fun r _ => hr r⟩

/-- What is drawn while searching. -/
theorem search_draws (hS : Sane E lit) {ms : List Moji} (h0 : 0 ≤ s.viewWidth)
    (h : drawLoop E.cfg s.viewWidth ms 0 s = .ok s1) :
    (∃ o, s1 = { s with out := o }) ∧ ∃ t, s1.out = s.out ++ t ∧ ∀ r, r.col = s.topColumn →
      (Row.run E.cfg lit r t).high ≤ max r.high (s.termWidth - 3) := by
  obtain ⟨shown, ⟨rest, r1, r2, r3⟩, he, t, e, hr⟩ := drawLoop_draws (lit := lit) h
  refine ⟨he, t, e, fun r hc => ?_⟩
  rw [hr]
  apply puts_high (hS.wide _)
  · omega
  · have : columns E.cfg shown ≤ s.viewWidth := by
      rcases r2 with r2 | r2
      · subst r2; exact h0
      · omega
    have := St.lim s
    omega

theorem getKey_state {k : Option Bytes} (h : getKey s = (k, s1)) :
    ∃ rest, s1 = { s with input := rest, out := s.out ++ [.await] } := by
  unfold getKey at h
  dsimp only at h
  split at h
  · cases h; exact ⟨_, rfl⟩
  · cases h; exact ⟨_, rfl⟩
  · cases h; exact ⟨_, rfl⟩

theorem noResize_sublist (evs : List Ev) : (noResize evs).Sublist evs := by
  induction evs with
  | nil => exact List.Sublist.refl _
  | cons x evs ih =>
    cases x with
    | resize w => exact ih.cons _
    | key k => exact ih.cons_cons _
    | err k => exact ih.cons_cons _

theorem mem_dropLast {a : α} {l L : List α} (h : (a :: l).Sublist L) (hl : l ≠ []) : a ∈ L.dropLast := by
  induction L with
  | nil => cases h
  | cons x L ih =>
    cases h with
    | cons _ h =>
      have := ih h
      cases L with
      | nil => cases h
      | cons y L => exact List.mem_cons_of_mem _ this
    | cons_cons _ h =>
      cases L with
      | nil => exact absurd (List.sublist_nil.mp h) hl
      | cons y L => exact List.mem_cons_self

theorem dropLast_sublist {l L : List α} (h : l.Sublist L) : ∀ a ∈ l.dropLast, a ∈ L.dropLast := by
  intro a ha
  obtain ⟨x, hx⟩ : ∃ x, l = l.dropLast ++ [x] := by
    cases l with
    | nil => cases ha
    | cons y l => exact ⟨_, (List.dropLast_concat_getLast (by simp)).symm⟩
  obtain ⟨u, v, huv⟩ := List.append_of_mem ha
  rw [hx, huv] at h
  have h2 : (a :: (v ++ [x])).Sublist L := by
    refine List.Sublist.trans ?_ h
    simp
  exact mem_dropLast h2 (by simp)

/-- The only error the terminal reports is the end of its input. -/
def Spec.ErrorsLast (evs : List Ev) : Prop := ∀ e, Ev.err e ∉ evs.dropLast

theorem Spec.ErrorsLast.sub {evs evs' : List Ev} (h : ErrorsLast evs) (hs : evs'.Sublist evs) : ErrorsLast evs' :=
  fun e he => h e (dropLast_sublist hs _ he)

theorem getKey_input {k : Option Bytes} (h : getKey s = (k, s1)) : s1.input.Sublist s.input ∧
    (ErrorsLast s.input → noResize s1.input ≠ [] → k ≠ none) := by
  unfold getKey at h
  dsimp only at h
  have hi : (s.emit .await).input = s.input := rfl
  rw [hi] at h
  cases hp : popKey s.input with
  | none =>
    rw [hp] at h
    cases h
    refine ⟨List.Sublist.refl _, ?_⟩
    intro _ hn
    exfalso
    apply hn
    show noResize s.input = []
    have : ∀ evs, popKey evs = none → noResize evs = [] := by
      intro evs
      induction evs with
      | nil => intro _; rfl
      | cons x evs ih =>
        intro hpk
        cases x with
        | resize w =>
          rw [popKey] at hpk
          cases hq : popKey evs with
          | none => exact ih hq
          | some q => rw [hq] at hpk; cases hpk
        | key k => cases hpk
        | err k => cases hpk
    exact this _ hp
  | some q =>
    obtain ⟨ev, rest⟩ := q
    obtain ⟨e1, _, e3⟩ := popKey_noResize hp
    have hsub : rest.Sublist s.input := by
      have : ∀ evs ev rest, popKey evs = some (ev, rest) → rest.Sublist evs := by
        intro evs
        induction evs with
        | nil => intro _ _ hpk; cases hpk
        | cons x evs ih =>
          intro ev rest hpk
          cases x with
          | resize w =>
            rw [popKey] at hpk
            cases hq : popKey evs with
            | none => rw [hq] at hpk; cases hpk
            | some q =>
              obtain ⟨ev2, rest2⟩ := q
              rw [hq] at hpk
              cases hpk
              exact (ih _ _ hq).cons_cons _
          | key k => cases hpk; exact List.sublist_cons_self _ _
          | err k => cases hpk; exact List.sublist_cons_self _ _
      exact this _ _ _ hp
    rw [hp] at h
    cases ev with
    | key k' => cases h; exact ⟨hsub, fun _ _ => by simp⟩
    | resize w' => exact absurd rfl (e3 w')
    | err e =>
      cases h
      refine ⟨hsub, ?_⟩
      intro hE hn
      exfalso
      refine hE e (dropLast_sublist (noResize_sublist s.input) _ ?_)
      rw [e1]
      exact mem_dropLast (List.Sublist.refl _) hn

theorem showPrefix (h : Shows { E with predictColor := ([], []) } s r) : Shows E s r := by
  obtain ⟨right, pred, a1, a2, a3, a4, a5, a6⟩ := h.cells
  exact ⟨h.low, h.mid, h.high, h.col, right, pred, a1, a2, a3, a4, fun _ => a5 rfl, a6⟩

theorem slice_any {s s' : St} {l : List α} {lo hi : Int} {r : List α} (h : slice s l lo hi = .ok r) :
    slice s' l lo hi = .ok r := by
  obtain ⟨a, b, c, d⟩ := slice_ok h
  unfold slice
  rw [if_pos ⟨a, b⟩, if_pos c, d]

theorem isearch_paints (hS : Sane E lit) (n : Nat) (it : ISt) (s : St) {p : St × Result}
    (h : isearchLoop E n it s = .ok p) (hV : InView E s) (hFs : Fine E s) (hF : Fine E p.1) (hE : ErrorsLast s.input)
    (hk : noResize p.1.input ≠ []) : PaintsAt E lit s p.1 ∧ p.1.termWidth = s.termWidth := by
  induction n generalizing it s with
  | zero => cases h
  | succ n ih =>
    unfold isearchLoop at h
    obtain ⟨s1, h1, h⟩ := bind_ok.mp h
    obtain ⟨⟨o, e1⟩, t1, o1, r1⟩ := search_draws hS (Int.le_of_lt hFs.view) h1
    cases hg : getKey ((eraseline s1).emit .cursorOn) with
    | mk k s2 =>
    obtain ⟨rest, e2⟩ := getKey_state hg
    obtain ⟨g1, g2⟩ := getKey_input hg
    dsimp only at h
    rw [hg] at h
    have hi : ((eraseline s1).emit .cursorOn).input = s.input := by
      show s1.input = s.input
      rw [e1]
    rw [hi] at g1 g2
    -- the state in which the key is looked at
    obtain ⟨s3, hs3⟩ : ∃ s3, s2.emit .cursorOff = s3 := ⟨_, rfl⟩
    have hs : ∃ t, s3 = { s with input := s2.input, out := s.out ++ t } ∧ ∀ r, r.col = s.topColumn →
        (Row.run E.cfg lit r t).high ≤ max r.high (s.termWidth - 3) := by
      refine ⟨t1 ++ [.eraseEol, .cursorOn, .await, .cursorOff], ?_, ?_⟩
      · rw [← hs3, e2]
        show ({ s1 with input := rest, out := s1.out ++ [.eraseEol] ++ [.cursorOn] ++ [.await] ++ [.cursorOff] } : St) = _
        rw [o1, e1]
        simp
      · intro r hr
        rw [run_append]
        exact r1 r hr
    obtain ⟨t, e3, hr3⟩ := hs
    cases k with
    | none =>
      have hp : p.1 = s2 := by rw [← pure_ok.mp h]
      exact absurd rfl (g2 hE (by rw [← hp]; exact hk))
    | some key =>
    have hV3 : InView E s3 := by rw [e3]; exact hV.congr
    have hF3 : Fine E s3 := by rw [e3]; exact hFs.sub (fun m hm => hm) rfl
    have hE3 : ErrorsLast s3.input := by rw [e3]; exact hE.sub g1
    -- what remains is done in a state whose row starts behind the prompt
    have glue : ∀ {q : St × Result}, (PaintsAt E lit (gotoHead s3) q.1 ∧ q.1.termWidth = s3.termWidth) →
        PaintsAt E lit s q.1 ∧ q.1.termWidth = s.termWidth := by
      intro q hq
      obtain ⟨⟨t', e', r'⟩, hw⟩ := hq
      have hw' : q.1.termWidth = s.termWidth := by rw [hw, e3]
      refine ⟨⟨t ++ [.gotoCol (s.topColumn + 1)] ++ t', ?_, ?_⟩, hw'⟩
      · rw [e']
        show s3.out ++ [.gotoCol (s3.topColumn + 1)] ++ t' = _
        rw [e3]
        simp
      · intro r hr
        rw [run_append, run_append]
        have := r' (Row.run E.cfg lit (Row.run E.cfg lit r t) [.gotoCol (s.topColumn + 1)]) (by
          show s.topColumn + 1 - 1 = s3.topColumn
          rw [e3]; show _ = s.topColumn; omega)
        refine ⟨this.1, ?_⟩
        have h4 := this.2
        have h5 : (Row.run E.cfg lit (Row.run E.cfg lit r t) [.gotoCol (s.topColumn + 1)]).high =
          (Row.run E.cfg lit r t).high := rfl
        have h6 := hr3 r hr
        rw [h5] at h4
        rw [hw'] at h4 ⊢
        omega
    have again : ∀ it', isearchLoop E n it' (gotoHead s3) = .ok p →
        PaintsAt E lit s p.1 ∧ p.1.termWidth = s.termWidth := fun it' h' =>
      glue (ih it' (gotoHead s3) h' hV3.congr (hF3.sub (fun m hm => hm) rfl) hE3)
    dsimp only at h
    rw [hs3] at h
    split at h
    · exact again _ h
    split at h
    · obtain ⟨s4, h4, h⟩ := bind_ok.mp h
      have hp : p.1 = s4 := by rw [← pure_ok.mp h]
      apply glue
      rw [hp] at hF ⊢
      refine ⟨Paints.at (replace_paints hS (s := gotoHead s3) (Silent.refl.of_out) h4 hF), ?_⟩
      exact (replace_fields h4).2.1
    split at h
    · obtain ⟨nw, h4, h⟩ := bind_ok.mp h
      obtain ⟨s5, h5, h⟩ := bind_ok.mp h
      obtain ⟨s6, h6, h⟩ := bind_ok.mp h
      have hp : p.1 = s6 := by rw [← pure_ok.mp h]
      rw [hp] at hF ⊢
      have hS' : Sane { E with predictColor := ([], []) } lit :=
        ⟨hS.width, hS.nothing, hS.nothing, hS.bell, hS.nothing, hS.high⟩
      have ha : s3.aligned { E with predictColor := ([], []) } := St.noTabs_aligned hF3.tabs
      have hv' : InView { E with predictColor := ([], []) } s3 := ⟨hV3.low, hV3.mid, hV3.high, hV3.fits⟩
      have hg4 : getView2 { E with predictColor := ([], []) } s3 = .ok nw := by
        unfold getView2 getView at h4 ⊢
        obtain ⟨q, h7, h4⟩ := bind_ok.mp h4
        obtain ⟨v, h8, h7⟩ := bind_ok.mp h7
        obtain ⟨v2, h9, h4⟩ := bind_ok.mp h4
        have k8 : slice s3 s3.buf s3.viewStart s3.len = .ok v := slice_any h8
        have k9 : slice s3 s3.buf s3.viewStart s3.cursor = .ok v2 := slice_any h9
        rw [k8]
        rw [← pure_ok.mp h7] at h4
        show (do
          let _ ← slice s3 s3.buf s3.viewStart s3.cursor
          pure (viewLoop E.cfg s3.viewWidth v 0 0) : M (Nat × Int)) = _
        rw [k9]
        exact h4
      have hrep : repaintNoSuffix { E with predictColor := ([], []) } s3 = .ok s6 := by
        unfold repaintNoSuffix
        rw [hg4]
        show (do
          let s ← puts E (gotoHead s3) (gotoHead s3).viewStart ((gotoHead s3).viewStart + nw.1)
          let s ← (pure s : M St)
          let s := eraseline s
          let s := gotoHead s
          puts E s s.viewStart s.cursor) = _
        rw [h5]
        exact h6
      obtain ⟨_, t', e', r'⟩ := repaintNoSuffix_paints hS' ha hv' hrep
      have hw' : s6.termWidth = s.termWidth := by
        rw [(same_fields (repaintNoSuffix_same hrep).1).2.2.2.1, e3]
      refine ⟨⟨t ++ t', ?_, ?_⟩, hw'⟩
      · rw [e', e3]; simp
      · intro r hr
        rw [run_append]
        have := r' (Row.run E.cfg lit r t)
        refine ⟨showPrefix this.1, ?_⟩
        have h7 := this.2
        have h8 := hr3 r hr
        rw [hw'] at h7 ⊢
        show (Row.run E.cfg lit _ t').high ≤ _
        have h9 : (Row.run E.cfg lit (Row.run E.cfg lit r t) t').high ≤ _ := h7
        omega
    split at h
    · obtain ⟨it', h4, h⟩ := bind_ok.mp h
      exact again _ h
    split at h
    · obtain ⟨it', h4, h⟩ := bind_ok.mp h
      exact again _ h
    split at h
    · exact again _ h
    · exact again _ h

/-! ## Every command -/

theorem Silent.literal (hS : Sane E lit) (h : Silent E.cfg lit s s1) (b : Bytes) : Silent E.cfg lit s (s1.emit (.lit b)) :=
  h.emit _ fun r => hS.high b r

theorem saveModified_state (h : saveModifiedHistory E s = .ok s') : ∃ m, s' = { s with modHist := m } := by
  unfold saveModifiedHistory at h
  obtain ⟨same, h1, h⟩ := bind_ok.mp h
  split at h
  · exact ⟨s.modHist, by rw [← pure_ok.mp h]⟩
  · exact ⟨_, by rw [← pure_ok.mp h]⟩

theorem Keeps.of_state (h : Keeps E lit s1 s') (h0 : s1.out = s.out := by rfl)
    (h1 : s1.buf = s.buf := by rfl) (h2 : s1.viewStart = s.viewStart := by rfl)
    (h3 : s1.cursor = s.cursor := by rfl) (h4 : s1.topColumn = s.topColumn := by rfl)
    (h5 : s1.termWidth = s.termWidth := by rfl)
    (h6 : s1.suffix = s.suffix := by rfl) : Keeps E lit s s' := by
  obtain ⟨t, e, hr⟩ := h
  exact ⟨t, by rw [e, h0], fun r hs => hr r (hs.congr h1 h2 h3 h4 h5 h6)⟩

/-- What is assumed of a command: the terminal does not end in the middle of it, the prompt does not
become wider, and `SwapChar` finds units of equal width. -/
structure Careful (E : Env) (c : Cmd) (s s' : St) : Prop where
  errors : ErrorsLast s.input
  keys : noResize s'.input ≠ []
  top : s'.topColumn ≤ s.topColumn
  swap : c = .swapChar → SameWidths E s

theorem call_keeps (hS : Sane E lit) {c : Cmd} (hb : c.builtin = true) {p : St × Result} (h : Cmd.call E c s = .ok p)
    (hr : p.2 = .cont) (hV : InView E s) (hF : Fine E s) (hF' : Fine E p.1) (hC : Careful E c s p.1) :
    Keeps E lit s p.1 := by
  cases c with
  | acceptLine =>
    have : p = (s, .enter) := by rw [← pure_ok.mp h]
    rw [this] at hr; cases hr
  | interrupt =>
    have := pure_ok.mp h
    rw [← this] at hr; cases hr
  | beginningOfLine => exact (beginningOfLine_paints hS h hF').keeps
  | backwardChar => exact backwardChar_keeps hS h hV hF'
  | endOfLine =>
    obtain ⟨f, hd, hs⟩ := endOfLine_draws hS hF.tabs hF.narrow h
    exact Draws.keeps hd fun r hr => hs r (hr.ready hS)
  | forwardChar =>
    by_cases hc : s.cursor < s.len
    · exact forwardChar_keeps hS hF hc h
    · exact forwardCharEnd_keeps hS h (by omega) hF'
  | backwardDeleteChar => exact (backspace_keeps hS h hV hF).1
  | deleteChar => exact (deleteChar_paints hS h hV hF').keeps
  | deleteOrAbort =>
    change cmdDeleteOrAbort E s = .ok p at h
    unfold cmdDeleteOrAbort at h
    split at h
    · exact (deleteChar_paints hS h hV hF').keeps
    · have := pure_ok.mp h
      rw [← this] at hr; cases hr
  | killLine => exact killLine_keeps hS h
  | killWholeLine => exact (killWholeLine_paints hS hF.view h).keeps
  | unixWordRubout => exact (wordRubout_keeps hS h hV hF').keeps
  | unixLineDiscard => exact (lineDiscard_paints hS h hF').keeps
  | clearScreen =>
    change cmdClearScreen E s = .ok p at h
    unfold cmdClearScreen at h
    obtain ⟨s1, h1, h⟩ := bind_ok.mp h
    have hp : p.1 = s1 := by rw [← pure_ok.mp h]
    have ht := hC.top
    rw [hp] at hF' ht ⊢
    exact (repaintAll_paints hS (s1 := s.emit _) (Silent.refl.literal hS _) ⟨rfl, rfl, rfl, rfl⟩
      h1 hV hF' ht).keeps
  | repaintOnNewline =>
    change cmdRepaintOnNewline E s = .ok p at h
    unfold cmdRepaintOnNewline at h
    obtain ⟨s1, h1, h⟩ := bind_ok.mp h
    have hp : p.1 = s1 := by rw [← pure_ok.mp h]
    have ht := hC.top
    rw [hp] at hF' ht ⊢
    exact (repaintAll_paints hS (s1 := s.emit _) (Silent.refl.literal hS _) ⟨rfl, rfl, rfl, rfl⟩
      h1 hV hF' ht).keeps
  | quotedInsert =>
    change cmdQuotedInsert E s = .ok p at h
    unfold cmdQuotedInsert at h
    dsimp only at h
    cases hg : getKey (s.emit .cursorOn) with
    | mk k s2 =>
    obtain ⟨rest, e2⟩ := getKey_state hg
    rw [hg] at h
    have k2 : Keeps E lit s s2 := by
      rw [e2]
      exact ((Keeps.refl.emit .cursorOn fun _ => rfl).emit .await fun _ => rfl).congr
    cases k with
    | none =>
      have hp : p.1 = s2.emit .cursorOff := by rw [← pure_ok.mp h]
      rw [hp]
      exact k2.emit _ fun _ => rfl
    | some key =>
      obtain ⟨q, h1, h⟩ := bind_ok.mp h
      have hp : p.1 = q.1.emit .cursorOff := by rw [← pure_ok.mp h]
      rw [hp] at hF' ⊢
      refine Keeps.emit ?_ _ fun _ => rfl
      have hV2 : InView E s2 := by rw [e2]; exact hV.congr
      have hF2 : Fine E s2 := by rw [e2]; exact hF.sub (fun m hm => hm) rfl
      obtain ⟨a, b⟩ := selfInsert_keeps hS h1 hV2 hF2 (hF'.sub (fun m hm => hm) rfl)
      exact k2.trans a b
  | yank =>
    change cmdYank E s = .ok p at h
    unfold cmdYank at h
    split at h
    · cases h; exact Keeps.refl
    · obtain ⟨s1, h1, h⟩ := bind_ok.mp h
      have hp : p.1 = s1 := by rw [← pure_ok.mp h]
      rw [hp] at hF' ⊢
      exact (replace_paints hS Silent.refl h1 hF').keeps
  | yankWithQuote =>
    change cmdYankWithQuote E s = .ok p at h
    unfold cmdYankWithQuote at h
    split at h
    · cases h; exact Keeps.refl
    · obtain ⟨s1, h1, h⟩ := bind_ok.mp h
      have hp : p.1 = s1 := by rw [← pure_ok.mp h]
      rw [hp] at hF' ⊢
      exact (replace_paints hS Silent.refl h1 hF').keeps
  | swapChar => exact swapChar_keeps hS hF (hC.swap rfl) h
  | backwardWord => exact (backwardWord_paints hS h hV hF').keeps
  | forwardWord => exact forwardWord_keeps hS h hF hF'
  | undo => exact undo_keeps hS h hF'
  | previousHistory =>
    change cmdPreviousHistory E s = .ok p at h
    unfold cmdPreviousHistory at h
    split at h
    · cases h; exact Keeps.refl
    · split at h
      · cases h; exact Keeps.refl
      · obtain ⟨s2, h1, h⟩ := bind_ok.mp h
        obtain ⟨m, e⟩ := saveModified_state h1
        have hst : ∃ i j, ({ s2 with histPtr := s2.histPtr - 1 } : St) = { s with histPtr := i, modHist := j } := by
          rw [e]
          split
          · exact ⟨_, _, rfl⟩
          · exact ⟨_, _, rfl⟩
        obtain ⟨i, j, e2⟩ := hst
        rw [e2] at h
        exact (showHistory_keeps hS h hF.view hF').1.of_state
  | nextHistory =>
    change cmdNextHistory E s = .ok p at h
    unfold cmdNextHistory at h
    split at h
    · cases h; exact Keeps.refl
    · split at h
      · cases h; exact Keeps.refl
      · obtain ⟨s2, h1, h⟩ := bind_ok.mp h
        obtain ⟨m, e⟩ := saveModified_state h1
        rw [e] at h
        exact (showHistory_keeps hS h hF.view hF').1.of_state
  | isearchBackward =>
    obtain ⟨⟨t, e, hs⟩, _⟩ := isearch_paints hS _ _ _ h hV.congr (hF.sub (fun m hm => hm) rfl) hF' hC.errors hC.keys
    refine ⟨[.gotoCol (s.topColumn + 1)] ++ t, ?_, fun r _ => ?_⟩
    · rw [e]; exact List.append_assoc _ _ _
    · rw [run_append]
      have := hs (Row.run E.cfg lit r [.gotoCol (s.topColumn + 1)]) (by
        show s.topColumn + 1 - 1 = s.topColumn; omega)
      exact this
  | selfInsert k => exact (selfInsert_keeps hS h hV hF hF').1
  | completion P =>
    rcases cmdComplete_ok h with rfl | rfl | ⟨t, s1, h1, rfl⟩ | ⟨pos, t, s1, -, -, h1, rfl⟩
    · exact Keeps.refl
    · exact Keeps.refl.emit _ hS.bell
    · exact (repaintAll_paints hS (s1 := ((s.emit _).emit _).emit _)
        (((Silent.refl.literal hS _).literal hS _).literal hS _) ⟨rfl, rfl, rfl, rfl⟩ h1 hV hF' hC.top).keeps
    · exact (replace_paints hS Silent.refl h1 hF').keeps
  | custom f => cases hb

/-! ## Steps and sessions -/

theorem resize_paints (hS : Sane E lit) {n : Int} (h : onResize E s n = .ok s') (hF : Fine E s') :
    Repaints E lit s s' := by
  unfold onResize repaintLastLine at h
  dsimp only at h
  have hq : Silent E.cfg lit s ({ s with termWidth := n }.emit .flush) :=
    Silent.emit (s1 := { s with termWidth := n }) (Silent.refl.of_out) .flush fun _ => rfl
  have hc : ∀ (t : St) (x : Tok), (resetViewStart E t).emit x = resetViewStart E (t.emit x) := fun _ _ => rfl
  have hc2 : ∀ (t : St) (x : Nat), ({ resetViewStart E t with promptN := x } : St) =
    resetViewStart E { t with promptN := x } := fun _ _ => rfl
  split at h
  · rw [hc, hc] at h
    exact reset_paints hS (hq.literal hS _) h hF
  · rw [hc, hc2, hc] at h
    exact reset_paints hS (Silent.literal hS (hq.of_out) _) h hF

/-- What is assumed of a step. -/
def StepCareful (E : Env) (s s' : St) : Prop :=
  ∀ k rest, s.input = .key k :: rest → s'.topColumn ≤ s.topColumn ∧
    (lookupCommand E k = .swapChar → SameWidths E s)

theorem step_keeps (hS : Sane E lit) (hb : BuiltinKeys E) (h : step E s = .ok (s', none)) (hV : InView E s)
    (hF : Fine E s) (hF' : Fine E s') (hE : ErrorsLast s.input) (hk : noResize s'.input ≠ []) (hC : StepCareful E s s') :
    Keeps E lit s s' := by
  cases hi : s.input with
  | nil => rw [step, hi] at h; cases h
  | cons ev rest =>
    cases ev with
    | err e => rw [step, hi] at h; cases h
    | resize n =>
      rw [step, hi] at h
      obtain ⟨s1, h1, h⟩ := bind_ok.mp h
      cases h
      exact (Paints.silent (resize_paints hS h1 hF') (Silent.refl.of_out)).keeps
    | key k =>
      rw [step, hi] at h
      replace h : execCmd E (lookupCommand E k) { s.emit .await with input := rest } = .ok (s', none) := h
      unfold execCmd at h
      obtain ⟨q, h1, h⟩ := bind_ok.mp h
      have hq : q.2 = .cont ∧ s' = q.1.emit .cursorOn := by
        obtain ⟨q, rc⟩ := q
        cases rc with
        | cont => cases h; exact ⟨rfl, rfl⟩
        | enter => obtain ⟨_, _, h⟩ := bind_ok.mp h; cases h
        | abort => obtain ⟨_, _, h⟩ := bind_ok.mp h; cases h
        | intr => obtain ⟨_, _, h⟩ := bind_ok.mp h; cases h
      obtain ⟨hq, rfl⟩ := hq
      obtain ⟨c1, c2⟩ := hC k rest hi
      refine Keeps.emit ?_ _ fun _ => rfl
      have hs1 : Keeps E lit s ({ s.emit .await with input := rest }.emit .cursorOff) :=
        Keeps.emit (s1 := { s.emit .await with input := rest }) ((Keeps.refl.emit .await fun _ => rfl).congr) _ fun _ => rfl
      have hk1 := call_keeps hS (BuiltinKeys.builtin hb k) h1 hq hV.congr (hF.sub (fun m hm => hm) rfl)
        (hF'.sub (fun m hm => hm) rfl) ⟨hE.sub (by rw [hi]; exact List.sublist_cons_self _ _), hk, c1, fun he => by
          obtain ⟨k, hk⟩ := c2 he; exact ⟨k, hk⟩⟩
      obtain ⟨t, e, hr⟩ := hk1
      refine ⟨[.await, .cursorOff] ++ t, ?_, fun r hs => ?_⟩
      · rw [e]
        show s.out ++ [.await] ++ [.cursorOff] ++ t = _
        simp
      · rw [run_append]
        exact hr r (hs.congr)

theorem start_paints_prompt (hS : Sane E lit) (h : startSt E w = .ok s) (hF : Fine E s) :
    Repaints E lit { out := w.out } s := by
  unfold startSt at h
  obtain ⟨q, h1, h⟩ := bind_ok.mp h
  obtain ⟨s2, h2, h⟩ := bind_ok.mp h
  have hp : s = s2.emit .cursorOn := (pure_ok.mp h).symm
  obtain ⟨_, _, _, _, ⟨b, u, e⟩, _⟩ := insertString_ok h1
  have hpr : Silent E.cfg lit ({ out := w.out } : St) (promptSt E w) := by
    unfold promptSt
    have h0 := callPrompt_silent (s := { out := w.out }) (s1 := ({ cursor := w.cursor, clip := w.clip, termWidth := w.termWidth, input := w.input, out := w.out, promptN := w.promptN, histPtr := E.histLen } : St))
      hS (Silent.refl.of_out)
    dsimp only
    split
    · exact (h0.literal hS _).of_out
    · split
      · exact (h0.literal hS _).of_out
      · exact h0.of_out
  have hr : Repaints E lit { out := w.out } s2 := by
    refine reset_paints hS (hpr.of_out ?_) h2 (hF.sub (by rw [hp]; exact fun m hm => hm) (by rw [hp]; rfl))
    split
    · show q.1.out = _; rw [e]
    · show q.1.out = _; rw [e]
  obtain ⟨t, e, hr⟩ := hr
  rw [hp]
  refine ⟨t ++ [.cursorOn], ?_, fun r => ?_⟩
  · show s2.out ++ _ = _
    rw [e, List.append_assoc]
  · rw [run_append]
    exact ⟨(hr r).1.congr, (hr r).2⟩

/-- What is assumed of a session: see `Fine`, and
* the only error of the terminal is the end of its input;
* `RepaintAll` finds no wider prompt than the one before;
* `SwapChar` finds units of equal width. -/
structure Spec.Steady (E : Env) (w : World) : Prop where
  fine : ∀ s, Reachable E w s → Fine E s
  errors : ErrorsLast w.input
  prompt : ∀ s s' k rest, Reachable E w s → step E s = .ok (s', none) → s.input = .key k :: rest →
    s'.topColumn ≤ s.topColumn
  swap : ∀ s k rest, Reachable E w s → s.input = .key k :: rest → lookupCommand E k = .swapChar → SameWidths E s

theorem noResize_sub {a c : List Ev} (h : a.Sublist c) (hn : noResize a ≠ []) : noResize c ≠ [] := by
  intro hc
  apply hn
  have key : ∀ l : List Ev, noResize l = [] ↔ ∀ ev ∈ l, ∃ n, ev = .resize n := by
    intro l
    induction l with
    | nil => simp [noResize]
    | cons x l ih =>
      cases x with
      | resize n => rw [noResize, ih]; simp
      | key k => simp [noResize]
      | err k => simp [noResize]
  rw [key] at hc ⊢
  exact fun ev hev => hc ev (h.subset hev)

/-- Whenever a key is awaited the row shows the line. -/
theorem session_shows (hS : Sane E lit) (hb : BuiltinKeys E) (hw : Steady E w) (h : Reachable E w s)
    (hk : noResize s.input ≠ []) : ∃ t, s.out = w.out ++ t ∧ ∀ r, Shows E s (Row.run E.cfg lit r t) := by
  induction h with
  | start h =>
    obtain ⟨t, e, hr⟩ := start_paints_prompt hS h (hw.fine _ (.start h))
    exact ⟨t, e, fun r => (hr r).1⟩
  | @step s s' h hst ih =>
    have hin := reachable_input hb h
    obtain ⟨ev, rest, h1, h2⟩ := step_sublist hb hst
    have hsub : s'.input.Sublist s.input := by rw [h1]; exact h2.trans (List.sublist_cons_self _ _)
    obtain ⟨t, e, hr⟩ := ih (noResize_sub hsub hk)
    have hV := (hr ⟨0, fun _ => none, 0⟩).inView hS
    obtain ⟨t', e', hr'⟩ := step_keeps hS hb hst hV (hw.fine _ h) (hw.fine _ (.step h hst)) (hw.errors.sub hin) hk
      fun k rest hi => ⟨hw.prompt _ _ k rest h hst hi, hw.swap _ k rest h hi⟩
    refine ⟨t ++ t', by rw [e', e, List.append_assoc], fun r => ?_⟩
    rw [run_append]
    exact (hr' _ (hr r)).1

theorem session_inView (hS : Sane E lit) (hb : BuiltinKeys E) (hw : Steady E w) (h : Reachable E w s)
    (hk : noResize s.input ≠ []) : InView E s := by
  obtain ⟨t, _, hr⟩ := session_shows hS hb hw h hk
  exact (hr ⟨0, fun _ => none, 0⟩).inView hS

end Readline
