import Verif.Proof.Safe
/-!
# When commands can panic (continued): the built-in commands
-/
namespace Readline

/-- The history pointer is inside the history or just behind it. -/
def St.histOk (E : Env) (s : St) : Prop := 0 ≤ s.histPtr ∧ s.histPtr ≤ E.histLen

/-- The entry's range is inside a line of `n` units. -/
def Undo.fits (u : Undo) (n : Int) : Prop := 0 ≤ u.pos ∧ u.pos + u.del ≤ n

variable {E : Env} {s : St}

theorem widthBetween_wp {Q : Panic → Prop} {P : Int → Prop} {lo hi : Int} (h1 : 0 ≤ lo) (h2 : lo ≤ hi)
    (h3 : hi ≤ s.len) (hp : P (cellsWidth E.cfg ((s.buf.take hi.toNat).drop lo.toNat))) :
    Wp Q (widthBetween E s lo hi) P := by
  unfold widthBetween
  refine Wp.bind (slice_wp h1 h2 h3 ?_)
  exact hp

theorem subString_wp {Q : Panic → Prop} {P : Bytes → Prop} {lo hi : Int} (h1 : 0 ≤ lo) (h2 : lo ≤ hi)
    (h3 : hi ≤ s.len) (hp : P (cell2string ((s.buf.take hi.toNat).drop lo.toNat))) :
    Wp Q (subString s lo hi) P := by
  unfold subString
  refine Wp.bind (slice_wp h1 h2 h3 ?_)
  exact hp

theorem checkCursor_wp {Q : Panic → Prop} {P : Unit → Prop} (h1 : 0 ≤ s.cursor) (h2 : s.cursor ≤ s.len)
    (hp : P ()) : Wp Q (checkCursor s) P := by
  unfold checkCursor
  rw [if_pos h1, if_pos h2]
  exact hp

theorem insertString_wp {Q : Panic → Prop} {pos : Int} {t : Bytes} (h1 : 0 ≤ pos) (h2 : pos ≤ s.len) :
    Wp Q (insertString E s pos t) (fun p => (∃ b u, p.1 = { s with buf := b, undoes := u }) ∧
      p.1.len = s.len + p.2.length ∧
      p.1.buf = s.buf.take pos.toNat ++ p.2 ++ s.buf.drop pos.toNat) := by
  have : ∃ p, insertString E s pos t = .ok p := by
    have hb : bufInsert s pos (mojis2cells (stringToMoji E.cfg t)) = .ok _ := if_pos ⟨h1, h2⟩
    unfold insertString insertCells
    dsimp only
    rw [hb]
    exact ⟨_, rfl⟩
  obtain ⟨p, hp⟩ := this
  rw [hp]
  obtain ⟨_, _, _, _, h5, h6⟩ := insertString_ok hp
  refine ⟨h5, ?_, h6⟩
  unfold St.len at *
  rw [h6]
  simp only [List.length_append, List.length_take, List.length_drop]
  omega

theorem deleteCells_wp {Q : Panic → Prop} {pos n : Int} (h1 : 0 ≤ pos) :
    Wp Q (deleteCells E s pos n) (fun p => (∃ b u, p.1 = { s with buf := b, undoes := u }) ∧
      p.1.len = if n ≤ 0 ∨ s.len < pos + n then s.len else s.len - n) := by
  have : ∃ p, deleteCells E s pos n = .ok p := by
    unfold deleteCells
    split
    · exact ⟨_, rfl⟩
    · rename_i hc
      rw [slice_eq h1 (by omega) (by simp only [St.len] at hc; omega)]
      have hb : ∀ us, bufDelete { s with undoes := us } pos n.toNat
          = .ok (sliceDelete s.buf pos.toNat n.toNat) := by
        intro us
        exact if_pos ⟨h1, by show pos + (n.toNat : Int) ≤ s.len; omega⟩
      show ∃ p, (Bind.bind (bufDelete _ _ _) _ : M _) = _
      rw [hb]
      exact ⟨_, rfl⟩
  obtain ⟨p, hp⟩ := this
  rw [hp]
  obtain ⟨_, h5, _, h6⟩ := deleteCells_ok hp
  refine ⟨h5, ?_⟩
  unfold St.len at *
  rw [h6]
  split
  · rfl
  · simp only [List.length_append, List.length_take, List.length_drop]
    omega

/-- Postcondition of the commands. -/
def Post (p : St × Result) : Prop := p.1.inside

theorem replaceAndRepaint_wp {pos : Int} {t : Bytes} (h : 0 ≤ pos) (h2 : pos ≤ s.cursor)
    (h3 : s.cursor ≤ s.len) : Wp (Panic.known E) (replaceAndRepaint E s pos t) (fun s' => s'.inside) := by
  unfold replaceAndRepaint
  refine Wp.bind (Wp.mono (deleteCells_wp h) ?_)
  rintro ⟨s1, w⟩ _ ⟨⟨b1, u1, rfl⟩, hl1⟩
  simp only at hl1
  refine Wp.bind (Wp.mono (insertString_wp h (by split at hl1 <;> omega)) ?_)
  rintro ⟨s2, ins⟩ _ ⟨⟨b2, u2, rfl⟩, hl2, _⟩
  simp only at hl2
  dsimp only
  rw [joinUndo_eq]
  apply resetRepaint_wp
  · show 0 ≤ pos + _; omega
  · show pos + _ ≤ St.len _
    have : St.len { s with buf := b2, undoes := u2 }
      = St.len { s with buf := b1, undoes := u1 } + ins.length := hl2
    have hx : pos + (ins.length : Int) ≤ St.len { s with buf := b2, undoes := u2 } := by
      rw [this, hl1]
      split <;> omega
    exact hx

theorem insertAndRepaint_wp {t : Bytes} (h : s.inside) :
    Wp (Panic.known E) (insertAndRepaint E s t) (fun s' => s'.inside) :=
  replaceAndRepaint_wp (by have := h.1; have := h.2.1; omega) (Int.le_refl _) h.2.2

theorem repaintAll_wp (h : s.inside) : Wp (Panic.isTab E) (repaintAll E s) (fun s' => s'.inside) := by
  unfold repaintAll callPromptWriter
  cases E.prompt <;> exact Wp.mono (repaint_wp E _ h) (fun _ _ h => h.2)

theorem repaintLastLine_wp (h1 : 0 ≤ s.cursor) (h2 : s.cursor ≤ s.len) :
    Wp (Panic.known E) (repaintLastLine E (resetViewStart E s)) (fun s' => s'.inside) := by
  have hr := resetViewStart_inside E s h1 h2
  have h0 : 0 ≤ (resetViewStart E s).viewStart := by show (0 : Int) ≤ ((_ : Nat) : Int); omega
  unfold repaintLastLine
  cases E.prompt <;>
  exact Wp.mono (repaint_narrow_wp E _ h0 h1 h2 hr) (fun _ _ h => h.2)

theorem backspace_wp (h : s.inside) : Wp (Panic.isTab E) (cmdBackwardDeleteChar E s) Post := by
  obtain ⟨h1, h2, h3⟩ := h
  unfold cmdBackwardDeleteChar
  split
  · rename_i hc
    dsimp only
    refine Wp.bind (Wp.mono (deleteCells_wp (by show 0 ≤ s.cursor - 1; omega)) ?_)
    rintro ⟨s1, w⟩ _ ⟨⟨b1, u1, rfl⟩, hl1⟩
    simp only at hl1
    have hl : St.len { s with cursor := s.cursor - 1, buf := b1, undoes := u1 } = s.len - 1 := by
      rw [hl1, if_neg (by simp only [St.len] at *; omega)]; rfl
    dsimp only
    refine Wp.bind (Wp.mono (repaint_wp E _ ?_) (fun _ _ h => h.2))
    split
    · exact ⟨by show 0 ≤ s.cursor - 1; omega, Int.le_refl _, by
        show s.cursor - 1 ≤ St.len _
        simp only [St.len] at *; omega⟩
    · rename_i hv
      refine ⟨h1, ?_, ?_⟩
      · show s.viewStart ≤ s.cursor - 1; omega
      · show s.cursor - 1 ≤ St.len _
        simp only [St.len] at *; omega
  · exact Wp.pure ⟨h1, h2, h3⟩

theorem deleteChar_wp (h : s.inside) : Wp (Panic.isTab E) (cmdDeleteChar E s) Post := by
  obtain ⟨h1, h2, h3⟩ := h
  unfold cmdDeleteChar
  refine Wp.bind (Wp.mono (deleteCells_wp (by omega)) ?_)
  rintro ⟨s1, w⟩ _ ⟨⟨b1, u1, rfl⟩, hl1⟩
  simp only at hl1
  dsimp only
  refine Wp.bind (Wp.mono (repaint_wp E _ ⟨h1, h2, ?_⟩) (fun _ _ h => h.2))
  show s.cursor ≤ _
  rw [hl1]
  split <;> omega

theorem selfInsertTail_wp {t : Bytes} (h : s.inside) :
    Wp (Panic.known E) (selfInsertTail E s t) Post := by
  obtain ⟨h1, h2, h3⟩ := h
  unfold selfInsertTail
  refine Wp.bind (Wp.mono (insertString_wp (by omega) h3) ?_)
  rintro ⟨s1, ins⟩ _ ⟨⟨b1, u1, rfl⟩, hl1, _⟩
  simp only at hl1
  refine Wp.bind (widthBetween_wp h1 h2 (by show s.cursor ≤ _; rw [hl1]; omega) ?_)
  dsimp only
  refine Wp.bind ?_
  split
  · refine Wp.mono (resetRepaint_wp E _ ?_ ?_) (fun _ _ h => h)
    · show 0 ≤ s.cursor + _; omega
    · show s.cursor + _ ≤ St.len _
      simp only [St.len] at *; omega
  · refine Wp.weaken (Wp.mono (repaint_wp E _ ⟨h1, ?_, ?_⟩) (fun _ _ h => h.2)) Panic.isTab.known
    · show s.viewStart ≤ s.cursor + _; omega
    · show s.cursor + _ ≤ St.len _
      simp only [St.len] at *; omega

theorem selfInsert_wp {k : Bytes} (h : s.inside) : Wp (Panic.known E) (cmdSelfInsert E k s) Post := by
  obtain ⟨h1, h2, h3⟩ := h
  unfold cmdSelfInsert
  dsimp only
  split
  · rename_i hc
    simp only [Bool.and_eq_true, decide_eq_true_eq] at hc
    refine Wp.bind (index_wp (by omega) (by simp only [St.len] at h3; omega) ?_)
    intro c _
    exact Wp.weaken (backspace_wp ⟨h1, h2, h3⟩) Panic.isTab.known
  · split
    · rename_i _ hc
      simp only [Bool.and_eq_true, decide_eq_true_eq] at hc
      refine Wp.bind (index_wp (by omega) (by simp only [St.len] at h3; omega) ?_)
      intro c _
      refine Wp.bind (Wp.weaken (Wp.mono (backspace_wp ⟨h1, h2, h3⟩) ?_) Panic.isTab.known)
      rintro ⟨s1, r⟩ _ hp
      exact selfInsertTail_wp hp
    · split
      · exact selfInsertTail_wp (s := { s with pending := [] }) ⟨h1, h2, h3⟩
      · exact selfInsertTail_wp ⟨h1, h2, h3⟩

theorem eolLoop_le (C : Cfg) (buf : List Cell) (vw : Int) (n : Nat) (w : Int) :
    eolLoop C buf vw n w ≤ n := by
  induction n generalizing w with
  | zero => simp [eolLoop]
  | succ n ih =>
    unfold eolLoop
    split
    · omega
    · dsimp only
      split
      · omega
      · have := ih (w + (by assumption : Cell).moji.width C)
        omega

theorem endOfLine_wp (h : s.inside) : Wp (Panic.known E) (cmdEndOfLine E s) Post := by
  obtain ⟨h1, h2, h3⟩ := h
  unfold cmdEndOfLine
  refine Wp.bind (widthBetween_wp h1 (by omega) (Int.le_refl _) ?_)
  split
  · refine Wp.bind (Wp.weaken (Wp.mono (puts_wp E s _ _ (by omega) h3 (Int.le_refl _)) ?_) Panic.isTab.known)
    intro s1 _ e1
    apply Wp.pure
    refine ⟨?_, ?_, Int.le_refl _⟩
    · show 0 ≤ s1.viewStart; rw [e1.view.1]; exact h1
    · show s1.viewStart ≤ s1.len; rw [e1.view.1, e1.len]; omega
  · rename_i hc
    dsimp only
    by_cases he : s.buf = []
    · have hlen : (gotoHead s).len = 0 := by simp [gotoHead, St.emit, St.len, he]
      have : index (gotoHead s) (gotoHead s).buf ((gotoHead s).len - 1) = .error ⟨.bounds, gotoHead s⟩ := by
        rw [hlen]; rfl
      rw [this]
      right
      refine ⟨rfl, Or.inl ?_⟩
      show s.viewWidth ≤ 0
      have hl : s.len = 0 := by simp [St.len, he]
      simp only [he, List.take_nil, List.drop_nil, cellsWidth, List.map_nil, List.sum_nil] at hc
      omega
    · have hpos : 0 < s.buf.length := List.length_pos_iff.mpr he
      refine Wp.bind (index_wp (by show 0 ≤ s.len - 1; simp only [St.len]; omega)
        (by show s.len - 1 < s.buf.length; simp only [St.len]; omega) ?_)
      intro c _
      have hle := eolLoop_le E.cfg (gotoHead s).buf (gotoHead s).viewWidth
        ((gotoHead s).len - 1).toNat (c.moji.width E.cfg)
      have hl0 : (gotoHead s).len = s.len := rfl
      generalize eolLoop E.cfg (gotoHead s).buf (gotoHead s).viewWidth
        ((gotoHead s).len - 1).toNat (c.moji.width E.cfg) = vs at *
      have hvl : (vs : Int) ≤ s.len := by simp only [St.len] at *; omega
      refine Wp.bind (Wp.weaken (Wp.mono (puts_wp E _ _ _ ?_ ?_ ?_) ?_) Panic.isTab.known)
      · show (0 : Int) ≤ (vs : Int); omega
      · exact hvl
      · exact Int.le_refl _
      · intro s1 _ e1
        apply Wp.pure
        have hv : s1.viewStart = vs := e1.view.1
        have hl : s1.len = s.len := e1.len
        refine ⟨?_, ?_, Int.le_refl _⟩
        · show 0 ≤ s1.viewStart; rw [hv]; omega
        · show s1.viewStart ≤ s1.len; rw [hv, hl]; exact hvl

theorem forwardChar_wp (h : s.inside) : Wp (Panic.known E) (cmdForwardChar E s) Post := by
  obtain ⟨h1, h2, h3⟩ := h
  unfold cmdForwardChar
  split
  · split
    · refine Wp.bind (Wp.mono (insertAndRepaint_wp ⟨h1, h2, h3⟩) (fun _ _ h => h))
    · exact Wp.pure ⟨h1, h2, h3⟩
  · rename_i hc
    refine Wp.bind (widthBetween_wp h1 (by omega) (by omega) ?_)
    split
    · refine Wp.bind (Wp.weaken (Wp.mono (puts_wp E s _ _ (by omega) (by omega) (by omega)) ?_)
        Panic.isTab.known)
      intro s1 _ e1
      apply Wp.pure
      have hv := e1.view
      have hl := e1.len
      refine ⟨?_, ?_, ?_⟩
      · show 0 ≤ s1.viewStart; omega
      · show s1.viewStart ≤ s1.cursor + 1; omega
      · show s1.cursor + 1 ≤ s1.len; omega
    · rename_i hw
      have hlb : ((gotoHead s).buf.length : Int) = s.len := rfl
      have hix : ∀ i : Int, 0 ≤ i → (hi : i < s.len) → ∃ a, index (gotoHead s) (gotoHead s).buf i = .ok a ∧
          s.buf[i.toNat]? = some a := by
        intro i h0 hi
        unfold index
        rw [if_neg (by omega)]
        have : i.toNat < s.buf.length := by simp only [St.len] at hi; omega
        have hb : (gotoHead s).buf = s.buf := rfl
        rw [hb, List.getElem?_eq_getElem this]
        exact ⟨_, rfl, rfl⟩
      obtain ⟨c, hcx, hce⟩ := hix s.cursor (by omega) (by omega)
      obtain ⟨v, hvx, hve⟩ := hix s.viewStart (by omega) (by omega)
      have hcur : (gotoHead s).cursor = s.cursor := rfl
      have hvst : (gotoHead s).viewStart = s.viewStart := rfl
      dsimp only
      rw [hcur, hvst, hcx]
      refine Wp.bind ?_
      show Wp _ (Bind.bind _ _) _
      rw [hvx]
      refine Wp.bind ?_
      show Wp _ (Bind.bind _ _) _
      generalize hvs : (if c.moji.width E.cfg > v.moji.width E.cfg then s.viewStart + 1
        else s.viewStart) = vs
      have hb : s.viewStart ≤ vs ∧ vs + 1 ≤ s.cursor + 1 := by
        rcases Int.lt_or_le s.viewStart s.cursor with hlt | hge
        · split at hvs <;> omega
        · have : s.viewStart = s.cursor := by omega
          rw [this, hce] at hve
          cases hve
          rw [if_neg (by omega)] at hvs
          omega
      refine Wp.bind (Wp.weaken (Wp.mono (puts_wp E _ _ _ ?_ ?_ ?_) ?_) Panic.isTab.known)
      · show 0 ≤ vs + 1; omega
      · show vs + 1 ≤ s.cursor + 1; omega
      · show s.cursor + 1 ≤ s.len; omega
      · intro s1 _ e1
        apply Wp.pure
        have hv : s1.viewStart = vs + 1 := e1.view.1
        have hcu : s1.cursor = s.cursor := e1.view.2.1
        have hl : s1.len = s.len := e1.len
        refine ⟨?_, ?_, ?_⟩
        · show 0 ≤ s1.viewStart; omega
        · show s1.viewStart ≤ s1.cursor + 1; omega
        · show s1.cursor + 1 ≤ s1.len; omega

theorem killLine_wp (h : s.inside) : Wp (Panic.known E) (cmdKillLine E s) Post := by
  obtain ⟨h1, h2, h3⟩ := h
  unfold cmdKillLine
  refine Wp.bind (subString_wp (by omega) h3 (Int.le_refl _) ?_)
  dsimp only
  refine Wp.bind (slice_wp (by show 0 ≤ s.cursor; omega) h3 (Int.le_refl _) ?_)
  refine Wp.bind (slice_wp (Int.le_refl _) (by show 0 ≤ s.cursor; omega) h3 ?_)
  apply Wp.pure
  refine ⟨h1, h2, ?_⟩
  show s.cursor ≤ (((s.buf.take s.cursor.toNat).drop 0).length : Int)
  simp only [List.drop_zero, List.length_take, St.len] at *
  omega

theorem wordTopLoop_bounds (ds : List Rune) (cs : List Cell) (i w : Int) (q : Rune) (hi : 0 ≤ i)
    (hw : -1 ≤ w ∧ w < i ∨ w = -1) :
    -1 ≤ wordTopLoop ds cs i w q ∧ (wordTopLoop ds cs i w q < i + cs.length ∨
      wordTopLoop ds cs i w q = -1) := by
  induction cs generalizing i w q with
  | nil => simp only [wordTopLoop, List.length_nil]; omega
  | cons c cs ih =>
    unfold wordTopLoop
    simp only [List.length_cons]
    split
    · have := ih (i + 1) w q (by omega) (by omega)
      omega
    · have key : ∀ w' q', (-1 ≤ w' ∧ w' < i + 1 ∨ w' = -1) →
          -1 ≤ wordTopLoop ds cs (i + 1) w' q' ∧
          (wordTopLoop ds cs (i + 1) w' q' < i + ((cs.length + 1 : Nat) : Int) ∨
            wordTopLoop ds cs (i + 1) w' q' = -1) := by
        intro w' q' h
        have := ih (i + 1) w' q' (by omega) h
        omega
      apply key
      split
      · omega
      · split <;> omega

theorem currentWordTop_wp {Q : Panic → Prop} (h1 : 0 ≤ s.cursor) (h2 : s.cursor ≤ s.len) :
    Wp Q (currentWordTop E s) (fun t => 0 ≤ t ∧ t ≤ s.cursor) := by
  unfold currentWordTop
  refine Wp.bind (slice_wp (Int.le_refl _) h1 h2 ?_)
  apply Wp.pure
  have := wordTopLoop_bounds E.delimiters ((s.buf.take s.cursor.toNat).drop (0 : Int).toNat) 0 (-1) 0
    (Int.le_refl _) (by omega)
  have hl : ((s.buf.take s.cursor.toNat).drop (0 : Int).toNat).length = s.cursor.toNat := by
    simp only [St.len, Int.toNat_zero, List.drop_zero, List.length_take] at *; omega
  rw [hl] at this
  split <;> omega

theorem skipSpacesLeft_le (buf : List Cell) (n : Nat) : skipSpacesLeft buf n ≤ n := by
  induction n with
  | zero => simp [skipSpacesLeft]
  | succ n ih =>
    unfold skipSpacesLeft
    split
    · split <;> omega
    · omega

theorem skipWordLeft_le (buf : List Cell) (n : Nat) : skipWordLeft buf n ≤ n := by
  induction n with
  | zero => simp [skipWordLeft]
  | succ n ih =>
    unfold skipWordLeft
    split
    · split <;> omega
    · omega

theorem wordRubout_wp (h : s.inside) : Wp (Panic.known E) (cmdUnixWordRubout E s) Post := by
  obtain ⟨h1, h2, h3⟩ := h
  unfold cmdUnixWordRubout
  dsimp only
  refine Wp.bind (checkCursor_wp (by omega) h3 ?_)
  have hsk := skipSpacesLeft_le s.buf s.cursor.toNat
  generalize hs1 : ({ s with cursor := (skipSpacesLeft s.buf s.cursor.toNat : Nat) } : St) = s1
  have hc1 : s1.cursor = (skipSpacesLeft s.buf s.cursor.toNat : Nat) := by rw [← hs1]
  have hl1 : s1.len = s.len := by rw [← hs1]; rfl
  refine Wp.bind (Wp.mono (currentWordTop_wp (by omega) (by omega)) ?_)
  intro new _ hn
  refine Wp.bind (subString_wp hn.1 (by omega) (by omega) ?_)
  refine Wp.bind (Wp.mono (deleteCells_wp (by omega)) ?_)
  rintro ⟨s2, w⟩ _ ⟨⟨b1, u1, rfl⟩, hl2⟩
  simp only at hl2
  have hv1 : s1.viewStart = s.viewStart := by rw [← hs1]
  have hl3 : (b1.length : Int) = if s.cursor - new ≤ 0 ∨ s.len < new + (s.cursor - new) then s.len
      else s.len - (s.cursor - new) := by
    subst hs1
    exact hl2
  dsimp only
  refine Wp.bind ?_
  split
  · refine Wp.mono (resetRepaint_wp E _ ?_ ?_) (fun _ _ h => h)
    · exact hn.1
    · show new ≤ (b1.length : Int)
      rw [hl3]; split <;> omega
  · rename_i hnv
    refine Wp.weaken (Wp.mono (repaint_wp E _ ⟨?_, ?_, ?_⟩) (fun _ _ h => h.2)) Panic.isTab.known
    · exact h1
    · show s.viewStart ≤ new
      have : ¬ (new - s.viewStart < 2) := hnv
      omega
    · show new ≤ (b1.length : Int)
      rw [hl3]; split <;> omega

theorem unixLineDiscard_wp (h : s.inside) : Wp (Panic.known E) (cmdUnixLineDiscard E s) Post := by
  obtain ⟨h1, h2, h3⟩ := h
  unfold cmdUnixLineDiscard
  refine Wp.bind (subString_wp (Int.le_refl _) (by omega) h3 ?_)
  dsimp only
  refine Wp.bind (Wp.mono (deleteCells_wp (Int.le_refl _)) ?_)
  rintro ⟨s2, w⟩ _ ⟨⟨b1, u1, rfl⟩, hl2⟩
  refine Wp.bind (Wp.weaken (Wp.mono (repaint_wp E _ ⟨?_, ?_, ?_⟩) (fun _ _ h => h.2)) Panic.isTab.known)
  · exact Int.le_refl _
  · exact Int.le_refl _
  · show (0 : Int) ≤ (b1.length : Int); omega

theorem swapAt_length (l : List α) (i : Nat) : (swapAt l i).length = l.length := by
  unfold swapAt
  split <;> simp

theorem swapChar_wp (h : s.inside) : Wp (Panic.known E) (cmdSwapChar E s) Post := by
  obtain ⟨h1, h2, h3⟩ := h
  unfold cmdSwapChar
  split
  · split
    · exact Wp.pure ⟨h1, h2, h3⟩
    · refine Wp.bind (slice_wp (by omega) (by omega) h3 ?_)
      dsimp only
      refine Wp.bind (Wp.weaken (Wp.mono (puts_wp E _ _ _ h1 h2 ?_) ?_) Panic.isTab.known)
      · show s.cursor ≤ ((swapAt s.buf _).length : Int)
        rw [swapAt_length]; exact h3
      · intro s1 _ e1
        apply Wp.pure
        refine e1.inside ⟨h1, h2, ?_⟩
        show s.cursor ≤ ((swapAt s.buf _).length : Int)
        rw [swapAt_length]; exact h3
  · rename_i hne
    split
    · exact Wp.pure ⟨h1, h2, h3⟩
    · refine Wp.bind (slice_wp (by omega) (by omega) (by simp only [St.len] at *; omega) ?_)
      dsimp only
      refine Wp.bind (widthBetween_wp h1 (by show s.viewStart ≤ s.cursor + 1; omega)
        (by show s.cursor + 1 ≤ s.len; omega) ?_)
      have hlen : ((swapAt s.buf (s.cursor - 1).toNat).length : Int) = s.len := by
        rw [swapAt_length]; rfl
      have key : ∀ s2 : St, s2.inside → Wp (Panic.known E) (do
          let s3 ← puts E s2 s2.viewStart s2.cursor
          pure (s3, Result.cont)) Post := by
        intro s2 hi
        refine Wp.bind (Wp.weaken (Wp.mono (puts_wp E _ _ _ hi.1 hi.2.1 hi.2.2) ?_) Panic.isTab.known)
        intro s3 _ e3
        exact Wp.pure (e3.inside hi)
      split <;> apply key
      · refine ⟨?_, ?_, ?_⟩
        · show 0 ≤ s.viewStart + 1; omega
        · show s.viewStart + 1 ≤ s.cursor + 1; omega
        · show s.cursor + 1 ≤ ((swapAt s.buf (s.cursor - 1).toNat).length : Int); omega
      · refine ⟨h1, ?_, ?_⟩
        · show s.viewStart ≤ s.cursor + 1; omega
        · show s.cursor + 1 ≤ ((swapAt s.buf (s.cursor - 1).toNat).length : Int); omega

theorem backwardWord_wp (h : s.inside) : Wp (Panic.known E) (cmdBackwardWord E s) Post := by
  obtain ⟨h1, h2, h3⟩ := h
  unfold cmdBackwardWord
  refine Wp.bind (checkCursor_wp (by omega) h3 ?_)
  dsimp only
  have hk1 := skipSpacesLeft_le s.buf s.cursor.toNat
  have hk2 := skipWordLeft_le s.buf (skipSpacesLeft s.buf s.cursor.toNat)
  generalize skipWordLeft s.buf (skipSpacesLeft s.buf s.cursor.toNat) = n at hk2
  refine Wp.bind (Wp.weaken (Wp.mono (repaint_wp E _ ?_) (fun _ _ h => h.2)) Panic.isTab.known)
  split
  · exact ⟨by show (0 : Int) ≤ (n : Int); omega, Int.le_refl _, by show (n : Int) ≤ s.len; omega⟩
  · refine ⟨h1, ?_, ?_⟩
    · show s.viewStart ≤ (n : Int); omega
    · show (n : Int) ≤ s.len; omega

theorem skipRight_bounds (p : Cell → Bool) (cs : List Cell) (n : Nat) :
    n ≤ skipRight p cs n ∧ skipRight p cs n ≤ n + cs.length := by
  induction cs generalizing n with
  | nil => simp [skipRight]
  | cons c cs ih =>
    unfold skipRight
    simp only [List.length_cons]
    split
    · have := ih (n + 1); omega
    · omega

theorem forwardWordPos_bounds (buf : List Cell) (n : Nat) (h : n ≤ buf.length) :
    n ≤ forwardWordPos buf n ∧ forwardWordPos buf n ≤ buf.length := by
  unfold forwardWordPos
  dsimp only
  have h1 := skipRight_bounds (fun c => !c.moji.isSpace) (buf.drop n) n
  generalize skipRight (fun c => !c.moji.isSpace) (buf.drop n) n = p at *
  have h2 := skipRight_bounds (fun c => c.moji.isSpace) (buf.drop p) p
  simp only [List.length_drop] at *
  omega

theorem forwardWord_wp (h : s.inside) : Wp (Panic.known E) (cmdForwardWord E s) Post := by
  obtain ⟨h1, h2, h3⟩ := h
  unfold cmdForwardWord
  refine Wp.bind (checkCursor_wp (by omega) h3 ?_)
  dsimp only
  have hb := forwardWordPos_bounds s.buf s.cursor.toNat (by simp only [St.len] at h3; omega)
  generalize forwardWordPos s.buf s.cursor.toNat = n at hb
  have hl : s.len = s.buf.length := rfl
  refine Wp.bind (widthBetween_wp h1 (by omega) (by omega) ?_)
  split
  · refine Wp.bind (Wp.weaken (Wp.mono (puts_wp E _ _ _ (by omega) (by omega) (by omega)) ?_)
      Panic.isTab.known)
    intro s1 _ e1
    apply Wp.pure
    have hv := e1.view
    have hl1 := e1.len
    refine ⟨?_, ?_, ?_⟩
    · show 0 ≤ s1.viewStart; omega
    · show s1.viewStart ≤ (n : Int); omega
    · show (n : Int) ≤ s1.len; omega
  · refine Wp.bind (Wp.mono (resetRepaint_wp E _ ?_ ?_) (fun _ _ h => h))
    · show (0 : Int) ≤ (n : Int); omega
    · show (n : Int) ≤ s.len; omega

theorem undo_wp (h : s.inside) (hu : ∀ u rest, s.undoes = u :: rest → u.fits s.len) :
    Wp (Panic.known E) (cmdUndo E s) Post := by
  obtain ⟨h1, h2, h3⟩ := h
  unfold cmdUndo
  split
  · exact Wp.pure ⟨h1, h2, h3⟩
  · rename_i u rest hus
    obtain ⟨hp, hf⟩ := hu u rest hus
    dsimp only
    have hdel : ∃ b1, (if u.del > 0 then bufDelete (gotoHead { s with undoes := rest }) u.pos u.del
        else pure (gotoHead { s with undoes := rest }).buf) = (.ok b1 : M (List Cell)) ∧
        (b1.length : Int) = s.len - u.del := by
      split
      · unfold bufDelete
        rw [if_pos ⟨hp, hf⟩]
        refine ⟨_, rfl, ?_⟩
        rw [sliceDelete_eq]
        · simp only [List.length_append, List.length_take, List.length_drop]
          have : (gotoHead { s with undoes := rest }).buf = s.buf := rfl
          rw [this]
          simp only [St.len] at *
          omega
        · show u.pos.toNat + u.del ≤ s.buf.length
          simp only [St.len] at *
          omega
      · refine ⟨_, rfl, ?_⟩
        show (s.buf.length : Int) = _
        simp only [St.len]; omega
    obtain ⟨b1, hb1, hl1⟩ := hdel
    rw [hb1]
    refine Wp.bind ?_
    show Wp _ (Bind.bind _ _) _
    refine Wp.bind ?_
    split
    · refine Wp.bind ?_
      have hpl : u.pos ≤ (b1.length : Int) := by omega
      unfold bufInsert
      rw [if_pos ⟨hp, hpl⟩]
      apply Wp.pure
      refine Wp.bind (Wp.mono (resetRepaint_wp E _ ?_ ?_) (fun _ _ h => h))
      · show 0 ≤ u.pos + _; omega
      · show u.pos + _ ≤ ((sliceInsert b1 u.pos.toNat _).length : Int)
        rw [sliceInsert_eq _ _ _ (by omega)]
        simp only [List.length_append, List.length_take, List.length_drop]
        omega
    · apply Wp.pure
      refine Wp.bind (Wp.mono (resetRepaint_wp E _ ?_ ?_) (fun _ _ h => h))
      · exact hp
      · show u.pos ≤ (b1.length : Int); omega

theorem histAt_wp {Q : Panic → Prop} {i : Int} (h1 : 0 ≤ i) (h2 : i < E.histLen) :
    Wp Q (histAt E s i) (fun _ => True) := index_wp h1 h2 (fun _ _ => trivial)

theorem saveModifiedHistory_wp {Q : Panic → Prop} (h : 0 ≤ s.histPtr) :
    Wp Q (saveModifiedHistory E s) (fun s' => ∃ m, s' = { s with modHist := m }) := by
  unfold saveModifiedHistory
  refine Wp.bind ?_
  have key : ∀ b : Bool, Wp Q (if b = true then (pure s : M St) else pure { s with
      modHist := (fun i => if i = s.histPtr then some s.text else s.modHist i : Int → Option Bytes) })
      (fun s' => ∃ m, s' = { s with modHist := m }) := by
    intro b
    split
    · exact Wp.pure ⟨s.modHist, rfl⟩
    · exact Wp.pure ⟨_, rfl⟩
  split
  · refine Wp.bind (Wp.mono (histAt_wp h (by assumption)) ?_)
    intro t _ _
    exact Wp.pure (key _)
  · exact Wp.pure (key _)

theorem getHistory_wp {Q : Panic → Prop} : Wp Q (getHistory E s) (fun _ => True) := by
  unfold getHistory
  split
  · trivial
  · split
    · trivial
    · rename_i hc
      exact histAt_wp (by omega) (by omega)

theorem showHistory_wp : Wp (Panic.known E) (showHistory E s) Post := by
  unfold showHistory
  obtain ⟨s1, hk, he, hb, hv⟩ := killWhole_ed s
  rw [hk]
  refine Wp.bind ?_
  show Wp _ (Bind.bind _ _) _
  refine Wp.bind (Wp.mono getHistory_wp ?_)
  intro t _ _
  have hc1 : s1.cursor = 0 := congrArg Ed.cursor he
  split
  · refine Wp.bind (Wp.mono (insertString_wp (Int.le_refl _) (by simp [St.len])) ?_)
    rintro ⟨s2, ins⟩ _ ⟨⟨b2, u2, rfl⟩, hl2, _⟩
    dsimp only
    refine Wp.bind (Wp.mono (endOfLine_wp ⟨Int.le_refl _, Int.le_refl _, ?_⟩) ?_)
    · show (0 : Int) ≤ (b2.length : Int); omega
    · rintro ⟨s3, r⟩ _ hp
      exact hp
  · apply Wp.pure
    show s1.inside
    exact ⟨by omega, by omega, by simp only [St.len]; omega⟩

theorem prevHistory_wp (h : s.inside) (hh : s.histOk E) :
    Wp (Panic.known E) (cmdPreviousHistory E s) Post := by
  unfold cmdPreviousHistory
  split
  · exact Wp.pure h
  · split
    · exact Wp.pure h
    · dsimp only
      refine Wp.bind (Wp.mono (saveModifiedHistory_wp ?_) ?_)
      · have := hh.1
        split
        · show 0 ≤ E.histLen + 1; omega
        · exact this
      · intro s1 _ _
        exact showHistory_wp

theorem nextHistory_wp (h : s.inside) (hh : s.histOk E) :
    Wp (Panic.known E) (cmdNextHistory E s) Post := by
  unfold cmdNextHistory
  split
  · exact Wp.pure h
  · split
    · exact Wp.pure h
    · refine Wp.bind (Wp.mono (saveModifiedHistory_wp hh.1) ?_)
      intro s1 _ _
      exact showHistory_wp

/-- The position of the search is inside the history. -/
def ISt.ok (E : Env) (it : ISt) : Prop :=
  -1 ≤ it.lastPos ∧ it.lastPos < E.histLen ∧ (it.lastPos = -1 → E.histLen = 0) ∧
  (it.found = [] ∨ it.found ∈ E.history) ∧ 9 ∉ it.search

theorem isearchUpdate_ok {it : ISt} (h : it.ok E) (n : Nat) : (isearchUpdate E it n).ok E := by
  induction n with
  | zero => exact ⟨h.1, h.2.1, h.2.2.1, Or.inl rfl, h.2.2.2.2⟩
  | succ n ih =>
    unfold isearchUpdate
    split
    · exact ⟨h.1, h.2.1, h.2.2.1, Or.inl rfl, h.2.2.2.2⟩
    · rename_i line hl
      split
      · have := (List.getElem?_eq_some_iff.mp hl).1
        refine ⟨?_, ?_, ?_, Or.inr (List.mem_of_getElem? hl), h.2.2.2.2⟩
        · show (-1 : Int) ≤ (n : Int); omega
        · show (n : Int) < E.histLen; unfold Env.histLen; omega
        · show (n : Int) = -1 → _; omega
      · exact ih

theorem nine_chopLast {t : Bytes} (h : 9 ∉ t) : 9 ∉ chopLast t :=
  nine_encodeRunes (fun hm => nine_runesOf h (List.dropLast_subset _ hm))

theorem histAt_mem {i : Int} {line : Bytes} (h : histAt E s i = .ok line) : line ∈ E.history := by
  unfold histAt index at h
  split at h
  · cases h
  · split at h
    · rename_i hx; cases h; exact List.mem_of_getElem? hx
    · cases h

theorem isearchPrev_wp {Q : Panic → Prop} {it : ISt} (h : it.ok E) (fuel : Nat) (i : Int)
    (hi : i < E.histLen) (hl : -1 ≤ i ∨ (E.histLen = 0 ∧ i < 0))
    (hf : (if i < it.lastPos then i + 1 + E.histLen - it.lastPos else i - it.lastPos) < (fuel : Int))
    (hf0 : 0 < fuel) :
    Wp Q (isearchPrev E s it fuel i) (fun it' => it'.ok E) := by
  obtain ⟨g1, g2, g3⟩ := h
  have hn : 0 ≤ E.histLen := by unfold Env.histLen; omega
  induction fuel generalizing i with
  | zero => omega
  | succ fuel ih =>
    unfold isearchPrev
    dsimp only
    generalize hj : (if i < 0 then E.histLen - 1 else i) = j
    split
    · exact Wp.pure ⟨g1, g2, g3⟩
    · rename_i hne
      have hz : E.histLen ≠ 0 := by
        intro hz; split at hj <;> omega
      have hj0 : 0 ≤ j ∧ j < E.histLen := by split at hj <;> omega
      refine Wp.bind (Wp.mono (histAt_wp hj0.1 hj0.2) ?_)
      intro line hl _
      split
      · exact Wp.pure ⟨by show -1 ≤ j; omega, hj0.2, by show j = -1 → _; omega,
          Or.inr (histAt_mem hl), g3.2.2⟩
      · have hd : (if j - 1 < it.lastPos then j - 1 + 1 + E.histLen - it.lastPos
            else j - 1 - it.lastPos) < (fuel : Int) := by
          split at hj <;> split at hf <;> split <;> omega
        have h0 : 0 < fuel := by split at hd <;> omega
        exact ih (j - 1) (by omega) (by omega) hd h0

theorem isearchNext_wp {Q : Panic → Prop} {it : ISt} (h : it.ok E) (fuel : Nat) (i : Int)
    (hi : 0 ≤ i) (hf : E.histLen - i < (fuel : Int)) (hf0 : 0 < fuel) :
    Wp Q (isearchNext E s it fuel i) (fun it' => it'.ok E) := by
  induction fuel generalizing i with
  | zero => omega
  | succ fuel ih =>
    unfold isearchNext
    split
    · exact Wp.pure h
    · split
      · exact Wp.pure h
      · rename_i h1 h2
        refine Wp.bind (Wp.mono (histAt_wp hi (by omega)) ?_)
        intro line hl _
        split
        · exact Wp.pure ⟨by show -1 ≤ i; omega, by show i < _; omega, by show i = -1 → _; omega,
            Or.inr (histAt_mem hl), h.2.2.2.2⟩
        · exact ih (i + 1) (by omega) (by omega) (by omega)

theorem popKey_length {inp : List Ev} {k : Ev} {rest : List Ev} (h : popKey inp = some (k, rest)) :
    rest.length < inp.length := by
  induction inp generalizing k rest with
  | nil => cases h
  | cons e inp ih =>
    cases e with
    | resize w =>
      rw [popKey] at h
      cases hp : popKey inp with
      | none => rw [hp] at h; cases h
      | some q =>
        obtain ⟨k', r'⟩ := q
        rw [hp] at h
        simp only [Option.some.injEq, Prod.mk.injEq] at h
        obtain ⟨rfl, rfl⟩ := h
        have := ih hp
        simp only [List.length_cons]; omega
    | key k' => rw [popKey] at h; cases h; simp; simp
    | err e' => rw [popKey] at h; cases h; simp; simp

theorem getKey_length {k : Bytes} {s' : St} (h : getKey s = (some k, s')) :
    s'.input.length < s.input.length := by
  unfold getKey at h
  have hi : (s.emit .await).input = s.input := rfl
  dsimp only at h
  rw [hi] at h
  split at h
  · rename_i k' rest hp
    cases h
    exact popKey_length hp
  · cases h
  · cases h

theorem isearchLoop_wp (n : Nat) (it : ISt) (s : St) (h : s.inside) (hit : it.ok E)
    (hn : s.input.length < n) : Wp (Panic.known E) (isearchLoop E n it s) Post := by
  induction n generalizing it s with
  | zero => omega
  | succ n ih =>
    unfold isearchLoop
    have hQ : ((∃ m : Moji, m.width E.cfg < 0) ∨ 32767 < s.viewWidth ∨ (E.cfg.zwjOk = true ∧
        ∃ m ∈ stringToMoji E.cfg (isearchDraw it), 9 ∈ m.write)) → TabBad E s := by
      rintro (h | h | ⟨h, m, hm, h9⟩)
      · exact Or.inl h
      · exact Or.inr (Or.inl h)
      · refine Or.inr (Or.inr (Or.inr (Or.inr ⟨h, Or.inr ?_⟩)))
        have h9 := stringToMoji_nine hm h9
        simp only [isearchDraw, List.mem_append] at h9
        rcases h9 with ((h9 | h9) | h9) | h9
        · exact absurd h9 (by decide)
        · exact absurd h9 hit.2.2.2.2
        · exact absurd h9 (by decide)
        · rcases hit.2.2.2.1 with hf | hf
          · rw [hf] at h9; cases h9
          · exact ⟨_, hf, h9⟩
    refine Wp.bind (Wp.weaken (Wp.mono (drawLoop_wp E _ _ s hQ) ?_) Panic.isTab.known)
    intro s1 _ e1
    dsimp only
    have hin : ∀ s2 : St, Same s1 { s2 with input := s1.input } → s2.inside := by
      intro s2 e2
      have := (e1.trans e2).inside h
      exact this
    have hk := (getKey_ed ((eraseline s1).emit .cursorOn)).2
    have hlen := @getKey_length ((eraseline s1).emit .cursorOn)
    generalize hg : getKey ((eraseline s1).emit .cursorOn) = g at *
    obtain ⟨ok, s2⟩ := g
    have e2 : Same s1 { s2 with input := s1.input } := ((Same.emit _ _).trans (Same.emit _ _)).trans hk
    have hi2 := hin s2 e2
    cases ok with
    | none => exact Wp.pure hi2
    | some key =>
      dsimp only
      have hlen2 : s2.input.length < n := by
        have h3 := @hlen key s2 rfl
        have h4 : ((eraseline s1).emit .cursorOn).input = s1.input := rfl
        rw [h4, e1.view.2.2.2.2] at h3
        omega
      have hi3 : (gotoHead (s2.emit .cursorOff)).inside := hi2
      have hl3 : (gotoHead (s2.emit .cursorOff)).input.length < n := hlen2
      generalize gotoHead (s2.emit .cursorOff) = s3 at *
      split
      · exact ih _ _ hi3 (isearchUpdate_ok (it := { it with search := chopLast it.search })
          ⟨hit.1, hit.2.1, hit.2.2.1, hit.2.2.2.1, nine_chopLast hit.2.2.2.2⟩ _) hl3
      · split
        · refine Wp.bind (Wp.mono (replaceAndRepaint_wp (Int.le_refl _) ?_ ?_) (fun _ _ h => h))
          · exact Int.le_refl _
          · exact Int.le_refl _
        · split
          · refine Wp.bind (Wp.mono (getView2_wp E _ hi3) ?_)
            rintro ⟨m, w⟩ _ hm
            obtain ⟨g1, g2, g3⟩ := hi3
            refine Wp.bind (Wp.weaken (Wp.mono (puts_wp E _ _ _ g1
              (by show s3.viewStart ≤ s3.viewStart + (m : Int); omega) hm.1) ?_) Panic.isTab.known)
            intro s4 _ e4
            obtain ⟨k1, k2, k3⟩ := e4.inside ⟨g1, g2, g3⟩
            refine Wp.bind (Wp.weaken (Wp.mono (puts_wp E (gotoHead (eraseline s4)) _ _ k1 k2 k3) ?_) Panic.isTab.known)
            intro s5 _ e5
            exact Wp.pure (e5.inside ⟨k1, k2, k3⟩)
          · split
            · obtain ⟨q1, q2, q3⟩ := hit
              refine Wp.bind (Wp.mono (isearchPrev_wp ⟨q1, q2, q3⟩ _ _ (by omega) (by omega) ?_ (by omega)) ?_)
              · have : E.histLen = E.history.length := rfl
                split <;> omega
              · intro it' _ hit'
                exact ih _ _ hi3 hit' hl3
            · split
              · obtain ⟨q1, q2, q3⟩ := hit
                refine Wp.bind (Wp.mono (isearchNext_wp ⟨q1, q2, q3⟩ _ _ (by omega) ?_ (by omega)) ?_)
                · have : E.histLen = E.history.length := rfl
                  omega
                · intro it' _ hit'
                  exact ih _ _ hi3 hit' hl3
              · split
                · exact ih _ _ hi3 hit hl3
                · rename_i hctl
                  refine ih _ _ hi3 (isearchUpdate_ok (it := { it with
                    search := it.search ++ encodeRune (decodeRune key).1 })
                    ⟨hit.1, hit.2.1, hit.2.2.1, hit.2.2.2.1, ?_⟩ _) hl3
                  simp only [List.mem_append, not_or]
                  refine ⟨hit.2.2.2.2, nine_encodeRune ?_⟩
                  intro e
                  rw [e] at hctl
                  exact hctl (by decide)

theorem complete_wp {P : Completing} (h : s.inside) :
    Wp (fun p => p.known E ∨ p.crash (.completion P)) (cmdComplete E P s) Post := by
  obtain ⟨h1, h2, h3⟩ := id h
  have hk : ∀ p : Panic, p.isTab E → p.known E ∨ p.crash (.completion P) := fun p hp => Or.inl (hp.known)
  rw [cmdComplete_eq h3]
  cases hx : Spec.completionOf P.uni P.completer P.postfix_ s.before with
  | crash => exact Or.inr ⟨P, rfl, rfl, h3, hx⟩
  | nothing => exact h
  | bell l =>
    unfold Spec.Outcome.call
    cases P.box with
    | none => exact h
    | some box =>
      dsimp only
      split
      · exact h
      · exact Wp.bind (Wp.weaken (Wp.mono (repaintAll_wp (by exact h)) (fun _ _ h => h)) hk)
  | insert pos t =>
    have hp := completionOf_pos hx
    have hl := s.before_length
    exact Wp.bind (Wp.weaken (Wp.mono (replaceAndRepaint_wp (by omega) (by omega) h3) (fun _ _ h => h)) (fun _ h => Or.inl h))

/-- A built-in command started inside the line either succeeds and ends inside the line, or
panics because of the terminal width or a tab beyond column 32767. -/
theorem call_wp_known {c : Cmd} (hb : c.builtin = true) (hnc : ∀ P, c ≠ .completion P) (h : s.inside) (hh : s.histOk E)
    (hu : c = .undo → ∀ u rest, s.undoes = u :: rest → u.fits s.len) :
    Wp (Panic.known E) (Cmd.call E c s) Post := by
  obtain ⟨h1, h2, h3⟩ := id h
  cases c with
  | acceptLine => exact Wp.pure h
  | interrupt => exact Wp.pure ⟨Int.le_refl _, Int.le_refl _, Int.le_refl _⟩
  | beginningOfLine =>
    refine Wp.bind (Wp.weaken (Wp.mono (repaint_wp E _ ⟨Int.le_refl _, Int.le_refl _, ?_⟩)
      (fun _ _ h => h.2)) Panic.isTab.known)
    show (0 : Int) ≤ s.len; omega
  | backwardChar =>
    show Wp _ (cmdBackwardChar E s) _
    unfold cmdBackwardChar
    split
    · exact Wp.pure h
    · dsimp only
      refine Wp.bind (Wp.weaken (Wp.mono (repaint_wp E _ ?_) (fun _ _ h => h.2)) Panic.isTab.known)
      refine ⟨?_, ?_, ?_⟩
      · show 0 ≤ if s.cursor - 1 < s.viewStart then s.viewStart - 1 else s.viewStart
        split <;> omega
      · show (if s.cursor - 1 < s.viewStart then s.viewStart - 1 else s.viewStart) ≤ s.cursor - 1
        split <;> omega
      · show s.cursor - 1 ≤ s.len; omega
  | endOfLine => exact endOfLine_wp h
  | forwardChar => exact forwardChar_wp h
  | backwardDeleteChar => exact Wp.weaken (backspace_wp h) Panic.isTab.known
  | deleteChar => exact Wp.weaken (deleteChar_wp h) Panic.isTab.known
  | deleteOrAbort =>
    show Wp _ (cmdDeleteOrAbort E s) _
    unfold cmdDeleteOrAbort
    split
    · exact Wp.weaken (deleteChar_wp h) Panic.isTab.known
    · exact Wp.pure h
  | killLine => exact killLine_wp h
  | killWholeLine =>
    obtain ⟨s1, hk, he, hb1, hv⟩ := killWhole_ed s
    show Wp _ (cmdKillWholeLine s) _
    rw [hk]
    have hc1 : s1.cursor = 0 := congrArg Ed.cursor he
    show s1.inside
    exact ⟨by omega, by omega, by simp only [St.len]; omega⟩
  | unixWordRubout => exact wordRubout_wp h
  | unixLineDiscard => exact unixLineDiscard_wp h
  | clearScreen =>
    refine Wp.bind (Wp.weaken (Wp.mono (repaintAll_wp ?_) (fun _ _ h => h)) Panic.isTab.known)
    exact h
  | repaintOnNewline =>
    refine Wp.bind (Wp.weaken (Wp.mono (repaintAll_wp ?_) (fun _ _ h => h)) Panic.isTab.known)
    exact h
  | quotedInsert =>
    show Wp _ (cmdQuotedInsert E s) _
    unfold cmdQuotedInsert
    dsimp only
    have hk := (getKey_ed (s.emit .cursorOn)).2
    generalize getKey (s.emit .cursorOn) = g at *
    obtain ⟨ok, s2⟩ := g
    have hi2 : s2.inside := by
      have := ((Same.emit s .cursorOn).trans hk).inside h
      exact this
    cases ok with
    | none => exact Wp.pure hi2
    | some key =>
      refine Wp.bind (Wp.mono (selfInsert_wp hi2) ?_)
      rintro ⟨s3, r⟩ _ hp
      exact Wp.pure hp
  | yank =>
    show Wp _ (cmdYank E s) _
    unfold cmdYank
    split
    · exact Wp.pure h
    · exact Wp.bind (Wp.mono (insertAndRepaint_wp h) (fun _ _ h => h))
  | yankWithQuote =>
    show Wp _ (cmdYankWithQuote E s) _
    unfold cmdYankWithQuote
    split
    · exact Wp.pure h
    · exact Wp.bind (Wp.mono (insertAndRepaint_wp h) (fun _ _ h => h))
  | swapChar => exact swapChar_wp h
  | backwardWord => exact backwardWord_wp h
  | forwardWord => exact forwardWord_wp h
  | undo => exact undo_wp h (hu rfl)
  | previousHistory => exact prevHistory_wp h hh
  | nextHistory => exact nextHistory_wp h hh
  | isearchBackward =>
    refine isearchLoop_wp _ _ _ h ⟨?_, ?_, ?_, Or.inl rfl, List.not_mem_nil⟩ (by show s.input.length < _; omega)
    · show -1 ≤ E.histLen - 1; unfold Env.histLen; omega
    · show E.histLen - 1 < E.histLen; omega
    · show E.histLen - 1 = -1 → _; omega
  | selfInsert k => exact selfInsert_wp h
  | completion P => exact absurd rfl (hnc P)
  | custom f => cases hb

/-- A built-in command started inside the line either succeeds and ends inside the line, or
panics because of the terminal width, a tab beyond column 32767, or the candidates for completion. -/
theorem call_wp {c : Cmd} (hb : c.builtin = true) (h : s.inside) (hh : s.histOk E)
    (hu : c = .undo → ∀ u rest, s.undoes = u :: rest → u.fits s.len) :
    Wp (fun p => p.known E ∨ p.crash c) (Cmd.call E c s) Post := by
  by_cases hP : ∃ P, c = .completion P
  · obtain ⟨P, rfl⟩ := hP
    exact complete_wp h
  · exact Wp.weaken (call_wp_known hb (fun P e => hP ⟨P, e⟩) h hh hu) (fun _ h => Or.inl h)

end Readline
