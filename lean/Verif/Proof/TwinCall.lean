import Verif.Proof.Twin
/-!
# Colours and output make no difference to commands and sessions
-/
namespace Readline

variable {vis : Seeing} {E F : Env} {s t : St}

theorem both_checkCursor (h : Twin vis s t) : Both vis (fun _ _ => True) (checkCursor s) (checkCursor t) := by
  unfold checkCursor
  rw [h.cursor, h.len]
  exact both_ite Iff.rfl (fun _ => both_ite Iff.rfl (fun _ => trivial) fun _ => ⟨rfl, h⟩)
    fun _ => ⟨rfl, h⟩

/-- A repaint and a result. -/
theorem both_then {x y : M St} (h : Both vis (Twin vis) x y) (r : Result) :
    Both vis (Twin2 vis) (do let s ← x; return (s, r)) (do let s ← y; return (s, r)) :=
  both_bind h fun _ _ h => ⟨h, rfl⟩

theorem both_puts_eq (hE : Dressed vis E F) (h : Twin vis s t) {lo hi lo' hi' : Int} (hl : lo' = lo)
    (hh : hi' = hi) : Both vis (Twin vis) (puts E s lo hi) (puts F t lo' hi') := by
  subst hl hh; exact both_puts hE h _ _

theorem twin_cursor (h : Twin vis s t) (c : Int) : Twin vis { s with cursor := c } { t with cursor := c } := by
  obtain ⟨cs, o, hm, ho, rfl⟩ := h.elim; exact ⟨hm, rfl, ho⟩

theorem twin_cursor' (h : Twin vis s t) {c d : Int} (e : d = c) :
    Twin vis { s with cursor := c } { t with cursor := d } := by
  subst e; exact twin_cursor h _

theorem twin_viewStart (h : Twin vis s t) (c : Int) :
    Twin vis { s with viewStart := c } { t with viewStart := c } := by
  obtain ⟨cs, o, hm, ho, rfl⟩ := h.elim; exact ⟨hm, rfl, ho⟩

theorem twin_clip (h : Twin vis s t) (c : Option Bytes) : Twin vis { s with clip := c } { t with clip := c } := by
  obtain ⟨cs, o, hm, ho, rfl⟩ := h.elim; exact ⟨hm, rfl, ho⟩

theorem twin_undoes (h : Twin vis s t) (c : List Undo) :
    Twin vis { s with undoes := c } { t with undoes := c } := by
  obtain ⟨cs, o, hm, ho, rfl⟩ := h.elim; exact ⟨hm, rfl, ho⟩

theorem twin_buf (h : Twin vis s t) {a c : List Cell} (hac : SameMojis a c) :
    Twin vis { s with buf := a } { t with buf := c } := by
  obtain ⟨cs, o, hm, ho, rfl⟩ := h.elim; exact ⟨hac, rfl, ho⟩

theorem both_beginningOfLine (hE : Dressed vis E F) (h : Twin vis s t) :
    Both vis (Twin2 vis) (cmdBeginningOfLine E s) (cmdBeginningOfLine F t) := by
  obtain ⟨cs, o, hm, ho, rfl⟩ := h.elim
  exact both_then (both_repaint hE ⟨hm, rfl, ho⟩) _

theorem both_backwardChar (hE : Dressed vis E F) (h : Twin vis s t) :
    Both vis (Twin2 vis) (cmdBackwardChar E s) (cmdBackwardChar F t) := by
  obtain ⟨cs, o, hm, ho, rfl⟩ := h.elim
  unfold cmdBackwardChar
  exact both_ite Iff.rfl (fun _ => ⟨h, rfl⟩) fun _ => both_then (both_repaint hE ⟨hm, rfl, ho⟩) _

theorem both_endOfLine (hE : Dressed vis E F) (h : Twin vis s t) :
    Both vis (Twin2 vis) (cmdEndOfLine E s) (cmdEndOfLine F t) := by
  unfold cmdEndOfLine
  rw [h.viewStart, h.len]
  refine both_bind (both_widthBetween hE h _ _) fun a c hac => ?_
  subst hac
  refine both_ite (by rw [h.viewWidth]) (fun _ => ?_) fun _ => ?_
  · rw [h.cursor]
    refine both_bind (both_puts hE h _ _) fun s t h => ?_
    refine both_pure ⟨twin_eraseline ?_, rfl⟩
    rw [h.len]
    exact twin_cursor h _
  · have h := twin_gotoHead h
    generalize gotoHead s = s at h ⊢
    generalize gotoHead t = t at h ⊢
    dsimp only
    rw [h.len]
    refine both_bind (both_index h h.1 _) fun a c hac => ?_
    rw [hac, hE.cfg, h.viewWidth, h.1.eolLoop]
    refine both_bind (both_puts_eq hE (twin_viewStart h _) rfl h.1.len) fun s t h => ?_
    refine both_pure ⟨twin_eraseline ?_, rfl⟩
    rw [h.len]
    exact twin_cursor h _

theorem both_forwardChar (hE : Dressed vis E F) (h : Twin vis s t) :
    Both vis (Twin2 vis) (cmdForwardChar E s) (cmdForwardChar F t) := by
  unfold cmdForwardChar
  rw [h.viewStart, h.len, h.cursor, h.suffixList]
  refine both_ite Iff.rfl (fun _ => both_ite Iff.rfl (fun _ => ?_) fun _ => ⟨h, rfl⟩) fun _ => ?_
  · exact both_then (both_insertAndRepaint hE h _) _
  · refine both_bind (both_widthBetween hE h _ _) fun a c hac => ?_
    subst hac
    refine both_ite (by rw [h.viewWidth]) (fun _ => ?_) fun _ => ?_
    · refine both_bind (both_puts hE h _ _) fun s t h => ?_
      obtain ⟨cs, o, hm, ho, rfl⟩ := h.elim
      exact both_pure ⟨⟨hm, rfl, ho⟩, rfl⟩
    · have h := twin_gotoHead h
      dsimp only
      generalize gotoHead s = s at h ⊢
      generalize gotoHead t = t at h ⊢
      rw [h.cursor, h.viewStart]
      refine both_bind (both_index h h.1 _) fun a c hac => ?_
      refine both_bind (both_index h h.1 _) fun a' c' hac' => ?_
      rw [hac, hac', hE.cfg]
      refine both_bind (both_puts hE ?_ _ _) fun s t h => ?_
      · obtain ⟨cs, o, hm, ho, rfl⟩ := h.elim
        exact ⟨hm, rfl, ho⟩
      · have h := twin_eraseline h
        obtain ⟨cs, o, hm, ho, e⟩ := h.elim
        rw [e]
        exact both_pure ⟨⟨hm, rfl, ho⟩, rfl⟩

theorem both_backwardDeleteChar (hE : Dressed vis E F) (h : Twin vis s t) :
    Both vis (Twin2 vis) (cmdBackwardDeleteChar E s) (cmdBackwardDeleteChar F t) := by
  unfold cmdBackwardDeleteChar
  rw [h.cursor]
  refine both_ite Iff.rfl (fun _ => ?_) fun _ => ⟨h, rfl⟩
  dsimp only
  have h : Twin vis { s with cursor := s.cursor - 1 } { t with cursor := s.cursor - 1 } := by
    obtain ⟨cs, o, hm, ho, rfl⟩ := h.elim
    exact ⟨hm, rfl, ho⟩
  refine both_bind (both_deleteCells hE h _ _) fun a c hac => ?_
  have h := hac.1
  refine both_then (both_repaint hE ?_) _
  rw [h.cursor, h.viewStart]
  refine twin_ite Iff.rfl (fun _ => ?_) fun _ => h
  obtain ⟨cs, o, hm, ho, e⟩ := h.elim
  rw [e]
  exact ⟨hm, rfl, ho⟩

theorem both_deleteChar (hE : Dressed vis E F) (h : Twin vis s t) :
    Both vis (Twin2 vis) (cmdDeleteChar E s) (cmdDeleteChar F t) := by
  unfold cmdDeleteChar
  rw [h.cursor]
  exact both_bind (both_deleteCells hE h _ _) fun a c hac => both_then (both_repaint hE hac.1) _

theorem both_deleteOrAbort (hE : Dressed vis E F) (h : Twin vis s t) :
    Both vis (Twin2 vis) (cmdDeleteOrAbort E s) (cmdDeleteOrAbort F t) := by
  unfold cmdDeleteOrAbort
  rw [h.len]
  exact both_ite Iff.rfl (fun _ => both_deleteChar hE h) fun _ => ⟨h, rfl⟩

theorem both_selfInsertTail (hE : Dressed vis E F) (h : Twin vis s t) (k : Bytes) :
    Both vis (Twin2 vis) (selfInsertTail E s k) (selfInsertTail F t k) := by
  unfold selfInsertTail
  rw [h.cursor]
  refine both_bind (both_insertString hE h _ _) fun a c hac => ?_
  obtain ⟨s, i⟩ := a
  obtain ⟨t, j⟩ := c
  obtain ⟨h, rfl⟩ : Twin vis s t ∧ j = i := hac
  obtain ⟨cs, o, hm, ho, rfl⟩ := h.elim
  refine both_bind (both_widthBetween hE h _ _) fun a c hac => ?_
  subst hac
  dsimp only
  rw [hE.cfg]
  have h := twin_cursor h (s.cursor + j.length)
  refine both_then (both_repaint hE ?_) _
  exact twin_ite Iff.rfl (fun _ => twin_resetViewStart hE h) fun _ => h

theorem both_selfInsert (hE : Dressed vis E F) (h : Twin vis s t) (k : Bytes) :
    Both vis (Twin2 vis) (cmdSelfInsert E k s) (cmdSelfInsert F k t) := by
  unfold cmdSelfInsert
  dsimp only
  rw [h.cursor, hE.cfg, h.pending]
  refine both_ite Iff.rfl (fun _ => ?_) fun _ => both_ite Iff.rfl (fun _ => ?_) fun _ =>
    both_ite Iff.rfl (fun _ => ?_) fun _ => both_selfInsertTail hE h _
  · refine both_bind (both_index h h.1 _) fun a c hac => ?_
    rw [hac]
    refine both_backwardDeleteChar hE ?_
    obtain ⟨cs, o, hm, ho, rfl⟩ := h.elim
    exact ⟨hm, rfl, ho⟩
  · refine both_bind (both_index h h.1 _) fun a c hac => ?_
    rw [hac]
    exact both_bind (both_backwardDeleteChar hE h) fun a c hac => both_selfInsertTail hE hac.1 _
  · refine both_selfInsertTail hE ?_ _
    obtain ⟨cs, o, hm, ho, rfl⟩ := h.elim
    exact ⟨hm, rfl, ho⟩

theorem both_killLine (hE : Dressed vis E F) (h : Twin vis s t) :
    Both vis (Twin2 vis) (cmdKillLine E s) (cmdKillLine F t) := by
  unfold cmdKillLine
  have e := h.len
  obtain ⟨cs, o, hm, ho, rfl⟩ := h.elim
  rw [e, hE.clipSet]
  refine both_bind (both_subString h _ _) fun a c hac => ?_
  subst hac
  have h := twin_eraseline (twin_clip h (E.clipSet s.clip c))
  refine both_bind (Q := SameMojis) ?_ fun a c hac => ?_
  · have f := both_slice h h.1 s.cursor s.len
    have g : (eraseline { s with buf := cs, clip := E.clipSet s.clip c, out := o }).len = s.len := e
    dsimp only
    rw [g]
    exact f
  · refine both_bind (both_slice h h.1 _ _) fun a' c' hac' => ?_
    rw [hac.text]
    exact both_pure ⟨⟨hac', rfl, h.2.2⟩, rfl⟩

theorem both_killWholeLine (h : Twin vis s t) : Both vis (Twin2 vis) (cmdKillWholeLine s) (cmdKillWholeLine t) := by
  unfold cmdKillWholeLine
  have e := h.text
  obtain ⟨cs, o, hm, ho, rfl⟩ := h.elim
  rw [e]
  have h := twin_undoes h ({ pos := 0, del := 0, text := s.text } :: s.undoes)
  have h := twin_eraseline (twin_gotoHead h)
  exact both_pure ⟨twin_viewStart (twin_cursor (twin_buf h (.refl [])) 0) 0, rfl⟩

theorem both_unixWordRubout (hE : Dressed vis E F) (h : Twin vis s t) :
    Both vis (Twin2 vis) (cmdUnixWordRubout E s) (cmdUnixWordRubout F t) := by
  unfold cmdUnixWordRubout
  refine both_bind (both_checkCursor h) fun _ _ _ => ?_
  dsimp only
  rw [h.1.skipSpacesLeft, h.cursor]
  have h : Twin vis { s with cursor := (skipSpacesLeft s.buf s.cursor.toNat : Nat) }
      { t with cursor := (skipSpacesLeft s.buf s.cursor.toNat : Nat) } := by
    obtain ⟨cs, o, hm, ho, rfl⟩ := h.elim
    exact ⟨hm, rfl, ho⟩
  refine both_bind (both_currentWordTop hE h) fun a c hac => ?_
  subst hac
  refine both_bind (both_subString h _ _) fun a' c' hac => ?_
  subst hac
  have e : t.clip = s.clip := h.clip
  rw [e, hE.clipSet]
  have h := twin_clip h (E.clipSet s.clip c')
  refine both_bind (both_deleteCells hE h _ _) fun a c' hac => ?_
  obtain ⟨s, i⟩ := a
  obtain ⟨t, j⟩ := c'
  obtain ⟨h, rfl⟩ : Twin vis s t ∧ j = i := hac
  have e : t.viewStart = s.viewStart := h.viewStart
  have h := twin_cursor h c
  refine both_then (both_repaint hE ?_) _
  refine twin_ite ?_ (fun _ => twin_resetViewStart hE h) fun _ => h
  show c - t.viewStart < 2 ↔ c - s.viewStart < 2
  rw [e]

theorem both_unixLineDiscard (hE : Dressed vis E F) (h : Twin vis s t) :
    Both vis (Twin2 vis) (cmdUnixLineDiscard E s) (cmdUnixLineDiscard F t) := by
  unfold cmdUnixLineDiscard
  obtain ⟨cs, o, hm, ho, rfl⟩ := h.elim
  refine both_bind (both_subString h _ _) fun a c hac => ?_
  subst hac
  dsimp only
  rw [hE.clipSet]
  have h := twin_clip h (E.clipSet s.clip c)
  refine both_bind (both_deleteCells hE h _ _) fun a c' hac => ?_
  exact both_then (both_repaint hE (twin_viewStart (twin_cursor hac.1 0) 0)) _

theorem both_clearScreen (hE : Dressed vis E F) (h : Twin vis s t) :
    Both vis (Twin2 vis) (cmdClearScreen E s) (cmdClearScreen F t) :=
  both_then (both_repaintAll hE (twin_emit h _)) _

theorem both_repaintOnNewline (hE : Dressed vis E F) (h : Twin vis s t) :
    Both vis (Twin2 vis) (cmdRepaintOnNewline E s) (cmdRepaintOnNewline F t) :=
  both_then (both_repaintAll hE (twin_emit h _)) _

theorem twin_input (h : Twin vis s t) (i : List Ev) :
    Twin vis { s with input := i } { t with input := i } := by
  obtain ⟨cs, o, hm, ho, rfl⟩ := h.elim; exact ⟨hm, rfl, ho⟩

theorem twin_getKey (h : Twin vis s t) :
    (getKey t).1 = (getKey s).1 ∧ Twin vis (getKey s).2 (getKey t).2 := by
  unfold getKey
  have h := twin_emit h .await
  dsimp only
  rw [h.input]
  rcases popKey (s.emit .await).input with _ | ⟨_ | _ | _, rest⟩
  · exact ⟨rfl, h⟩
  all_goals exact ⟨rfl, twin_input h rest⟩

theorem both_quotedInsert (hE : Dressed vis E F) (h : Twin vis s t) :
    Both vis (Twin2 vis) (cmdQuotedInsert E s) (cmdQuotedInsert F t) := by
  unfold cmdQuotedInsert
  have h := twin_getKey (twin_emit h .cursorOn)
  dsimp only
  generalize getKey (s.emit .cursorOn) = a at h ⊢
  generalize getKey (t.emit .cursorOn) = c at h ⊢
  obtain ⟨k, s⟩ := a
  obtain ⟨l, t⟩ := c
  obtain ⟨rfl, h⟩ : l = k ∧ Twin vis s t := h
  cases l with
  | none => exact ⟨twin_emit h _, rfl⟩
  | some k => exact both_bind (both_selfInsert hE h k) fun a c hac => ⟨twin_emit hac.1 _, hac.2⟩

theorem both_yank (hE : Dressed vis E F) (h : Twin vis s t) : Both vis (Twin2 vis) (cmdYank E s) (cmdYank F t) := by
  unfold cmdYank
  rw [h.clip]
  cases s.clip with
  | none => exact ⟨h, rfl⟩
  | some x => exact both_then (both_insertAndRepaint hE h _) _

theorem both_yankWithQuote (hE : Dressed vis E F) (h : Twin vis s t) :
    Both vis (Twin2 vis) (cmdYankWithQuote E s) (cmdYankWithQuote F t) := by
  unfold cmdYankWithQuote
  rw [h.clip]
  cases s.clip with
  | none => exact ⟨h, rfl⟩
  | some x => exact both_then (both_insertAndRepaint hE h _) _

theorem both_swapChar (hE : Dressed vis E F) (h : Twin vis s t) :
    Both vis (Twin2 vis) (cmdSwapChar E s) (cmdSwapChar F t) := by
  unfold cmdSwapChar
  rw [h.len]
  obtain ⟨cs, o, hm, ho, rfl⟩ := h.elim
  refine both_ite Iff.rfl (fun _ => both_ite Iff.rfl (fun _ => ⟨h, rfl⟩) fun _ => ?_)
    fun _ => both_ite Iff.rfl (fun _ => ⟨h, rfl⟩) fun _ => ?_
  · refine both_bind (both_slice h h.1 _ _) fun a c hac => ?_
    rw [hac.text]
    exact both_then (both_puts_eq hE (twin_gotoHead ⟨hm.swapAt _, rfl, ho⟩) rfl rfl) _
  · refine both_bind (both_slice h h.1 _ _) fun a c hac => ?_
    rw [hac.text]
    refine both_bind (both_widthBetween hE ⟨hm, rfl, ho⟩ _ _) fun a' c' hac => ?_
    subst hac
    refine both_then (both_puts_eq hE ?_ ?_ ?_) _
    · have h := twin_gotoHead (s := { s with buf := swapAt s.buf (s.cursor - 1).toNat, undoes := { pos := s.cursor - 1, del := 2, text := cell2string a } :: s.undoes })
        (t := { s with buf := swapAt cs (s.cursor - 1).toNat, out := o, undoes := { pos := s.cursor - 1, del := 2, text := cell2string a } :: s.undoes })
        (vis := vis) ⟨hm.swapAt _, rfl, ho⟩
      refine twin_cursor' (twin_ite Iff.rfl (fun _ => twin_viewStart h _) fun _ => h) ?_
      split <;> split <;> rfl
    · dsimp only
      split <;> split <;> first | rfl | contradiction
    · dsimp only
      split <;> split <;> rfl

theorem both_backwardWord (hE : Dressed vis E F) (h : Twin vis s t) :
    Both vis (Twin2 vis) (cmdBackwardWord E s) (cmdBackwardWord F t) := by
  unfold cmdBackwardWord
  refine both_bind (both_checkCursor h) fun _ _ _ => ?_
  have e : skipWordLeft t.buf (skipSpacesLeft t.buf t.cursor.toNat) =
      skipWordLeft s.buf (skipSpacesLeft s.buf s.cursor.toNat) := by
    rw [h.1.skipSpacesLeft, h.1.skipWordLeft, h.cursor]
  rw [e]
  refine both_then (both_repaint hE ?_) _
  generalize ((skipWordLeft s.buf (skipSpacesLeft s.buf s.cursor.toNat) : Nat) : Int) = n
  have h : Twin vis (if n < s.viewStart then { s with viewStart := n } else s)
      (if n < t.viewStart then { t with viewStart := n } else t) :=
    twin_ite (by rw [h.viewStart]) (fun _ => twin_viewStart h n) fun _ => h
  exact twin_cursor h n

theorem both_forwardWord (hE : Dressed vis E F) (h : Twin vis s t) :
    Both vis (Twin2 vis) (cmdForwardWord E s) (cmdForwardWord F t) := by
  unfold cmdForwardWord
  refine both_bind (both_checkCursor h) fun _ _ _ => ?_
  dsimp only
  rw [h.1.forwardWordPos, h.cursor, h.viewStart]
  refine both_bind (both_widthBetween hE h _ _) fun a c hac => ?_
  subst hac
  refine both_ite (by rw [h.viewWidth]) (fun _ => ?_) fun _ => ?_
  · refine both_bind (both_puts hE h _ _) fun s t h => ?_
    obtain ⟨cs, o, hm, ho, rfl⟩ := h.elim
    exact both_pure ⟨⟨hm, rfl, ho⟩, rfl⟩
  · refine both_then (both_repaint hE (twin_resetViewStart hE ?_)) _
    obtain ⟨cs, o, hm, ho, rfl⟩ := h.elim
    exact ⟨hm, rfl, ho⟩

theorem both_undo (hE : Dressed vis E F) (h : Twin vis s t) : Both vis (Twin2 vis) (cmdUndo E s) (cmdUndo F t) := by
  unfold cmdUndo
  rw [h.undoes]
  rcases hu : s.undoes with _ | ⟨u, rest⟩
  · exact ⟨twin_emit h _, rfl⟩
  · dsimp only
    have h : Twin vis (gotoHead { s with undoes := rest }) (gotoHead { t with undoes := rest }) := by
      exact twin_gotoHead (twin_undoes h _)
    generalize gotoHead { s with undoes := rest } = s at h ⊢
    generalize gotoHead { t with undoes := rest } = t at h ⊢
    refine both_bind (Q := SameMojis) ?_ fun a c hac => ?_
    · exact both_ite Iff.rfl (fun _ => both_bufDelete h _ _) fun _ => h.1
    · have h : Twin vis { s with buf := a } { t with buf := c } := by
        exact twin_buf h hac
      refine both_bind (Q := Twin vis) ?_ fun s t h =>
        both_then (both_repaint hE (twin_resetViewStart hE h)) _
      refine both_ite Iff.rfl (fun _ => ?_) fun _ => ?_
      · rw [hE.cfg]
        refine both_bind (both_bufInsert h _ _) fun a' c' hac' => ?_
        exact both_pure (twin_cursor (twin_buf h hac') _)
      · exact both_pure (twin_cursor h _)

theorem both_histAt (hE : Dressed vis E F) (h : Twin vis s t) (i : Int) :
    Both vis (fun x y => y = x) (histAt E s i) (histAt F t i) := by
  unfold histAt
  rw [hE.history]
  exact both_index_eq h _ _

theorem both_saveModifiedHistory (hE : Dressed vis E F) (h : Twin vis s t) :
    Both vis (Twin vis) (saveModifiedHistory E s) (saveModifiedHistory F t) := by
  unfold saveModifiedHistory
  dsimp only
  rw [h.histPtr, h.text, hE.histLen, h.modHist]
  refine both_bind (Q := fun x y => y = x) ?_ fun a c hac => ?_
  · refine both_ite Iff.rfl (fun _ => ?_) fun _ => rfl
    exact both_bind (both_histAt hE h _) fun a c hac => by rw [hac]; exact rfl
  · subst hac
    refine both_ite Iff.rfl (fun _ => h) fun _ => ?_
    obtain ⟨cs, o, hm, ho, rfl⟩ := h.elim
    exact ⟨hm, rfl, ho⟩

theorem both_getHistory (hE : Dressed vis E F) (h : Twin vis s t) :
    Both vis (fun x y => y = x) (getHistory E s) (getHistory F t) := by
  unfold getHistory
  rw [h.histPtr, h.modHist, hE.histLen]
  cases s.modHist s.histPtr with
  | some x => exact rfl
  | none => exact both_ite Iff.rfl (fun _ => rfl) fun _ => both_histAt hE h _

theorem both_showHistory (hE : Dressed vis E F) (h : Twin vis s t) :
    Both vis (Twin2 vis) (showHistory E s) (showHistory F t) := by
  unfold showHistory
  refine both_bind (both_killWholeLine h) fun a c hac => ?_
  have h := hac.1
  refine both_bind (both_getHistory hE h) fun a' c' hac' => ?_
  subst hac'
  refine both_ite Iff.rfl (fun _ => ?_) fun _ => ⟨h, rfl⟩
  refine both_bind (both_insertString hE h _ _) fun a c hac => ?_
  have h := hac.1
  refine both_bind (both_endOfLine hE ?_) fun a c hac => ⟨hac.1, rfl⟩
  obtain ⟨cs, o, hm, ho, e⟩ := h.elim
  rw [e]
  exact ⟨hm, rfl, ho⟩

theorem both_previousHistory (hE : Dressed vis E F) (h : Twin vis s t) :
    Both vis (Twin2 vis) (cmdPreviousHistory E s) (cmdPreviousHistory F t) := by
  unfold cmdPreviousHistory
  rw [hE.histLen, h.histPtr, hE.cycling]
  refine both_ite Iff.rfl (fun _ => ⟨h, rfl⟩) fun _ => both_ite Iff.rfl (fun _ => ⟨h, rfl⟩) fun _ => ?_
  have h : Twin vis (if s.histPtr ≤ 0 then { s with histPtr := E.histLen + 1 } else s)
      (if s.histPtr ≤ 0 then { t with histPtr := E.histLen + 1 } else t) := by
    refine twin_ite Iff.rfl (fun _ => ?_) fun _ => h
    obtain ⟨cs, o, hm, ho, rfl⟩ := h.elim
    exact ⟨hm, rfl, ho⟩
  refine both_bind (both_saveModifiedHistory hE h) fun s t h => both_showHistory hE ?_
  obtain ⟨cs, o, hm, ho, rfl⟩ := h.elim
  exact ⟨hm, rfl, ho⟩

theorem both_nextHistory (hE : Dressed vis E F) (h : Twin vis s t) :
    Both vis (Twin2 vis) (cmdNextHistory E s) (cmdNextHistory F t) := by
  unfold cmdNextHistory
  rw [hE.histLen, h.histPtr]
  refine both_ite Iff.rfl (fun _ => ⟨h, rfl⟩) fun _ => both_ite Iff.rfl (fun _ => ⟨h, rfl⟩) fun _ => ?_
  refine both_bind (both_saveModifiedHistory hE h) fun s t h => both_showHistory hE ?_
  obtain ⟨cs, o, hm, ho, rfl⟩ := h.elim
  exact ⟨hm, rfl, ho⟩

theorem ciContains_dressed (hE : Dressed vis E F) (a c : Bytes) : ciContains F a c = ciContains E a c := by
  unfold ciContains; rw [hE.toUpper]

theorem isearchUpdate_dressed (hE : Dressed vis E F) (it : ISt) : ∀ n : Nat,
    isearchUpdate F it n = isearchUpdate E it n
  | 0 => rfl
  | n + 1 => by
    simp only [isearchUpdate, hE.history, ciContains_dressed hE, isearchUpdate_dressed hE it n]

theorem both_isearchPrev (hE : Dressed vis E F) (h : Twin vis s t) (it : ISt) : ∀ (n : Nat) (i : Int),
    Both vis (fun x y => y = x) (isearchPrev E s it n i) (isearchPrev F t it n i)
  | 0, i => ⟨rfl, h⟩
  | n + 1, i => by
    simp only [isearchPrev]
    rw [hE.histLen]
    refine both_ite Iff.rfl (fun _ => rfl) fun _ => both_bind (both_histAt hE h _) fun a c hac => ?_
    subst hac
    rw [ciContains_dressed hE]
    exact both_ite Iff.rfl (fun _ => rfl) fun _ => both_isearchPrev hE h it n _

theorem both_isearchNext (hE : Dressed vis E F) (h : Twin vis s t) (it : ISt) : ∀ (n : Nat) (i : Int),
    Both vis (fun x y => y = x) (isearchNext E s it n i) (isearchNext F t it n i)
  | 0, i => ⟨rfl, h⟩
  | n + 1, i => by
    simp only [isearchNext]
    rw [hE.histLen]
    refine both_ite Iff.rfl (fun _ => rfl) fun _ => both_ite Iff.rfl (fun _ => rfl) fun _ =>
      both_bind (both_histAt hE h _) fun a c hac => ?_
    subst hac
    rw [ciContains_dressed hE]
    exact both_ite Iff.rfl (fun _ => rfl) fun _ => both_isearchNext hE h it n _

theorem both_drawLoop (C : Cfg) (vw : Int) : ∀ (ms : List Moji) (w : Int) {s t : St} (_ : Twin vis s t),
    Both vis (Twin vis) (drawLoop C vw ms w s) (drawLoop C vw ms w t)
  | [], w, s, t, h => h
  | m :: ms, w, s, t, h => by
    simp only [drawLoop]
    exact both_ite Iff.rfl (fun _ => h) (fun _ =>
      both_bind (both_printMoji h m) fun a c hac => both_drawLoop C vw ms _ hac)

theorem both_isearchLoop (hE : Dressed vis E F) : ∀ (n : Nat) (it : ISt) {s t : St} (_ : Twin vis s t),
    Both vis (Twin2 vis) (isearchLoop E n it s) (isearchLoop F n it t)
  | 0, it, s, t, h => ⟨rfl, h⟩
  | n + 1, it, s, t, h => by
    simp only [isearchLoop]
    rw [hE.cfg, h.viewWidth, hE.history]
    refine both_bind (both_drawLoop _ _ _ _ h) fun s t h => ?_
    have h := twin_getKey (twin_emit (twin_eraseline h) .cursorOn)
    generalize getKey ((eraseline s).emit .cursorOn) = a at h ⊢
    generalize getKey ((eraseline t).emit .cursorOn) = c at h ⊢
    obtain ⟨k, s⟩ := a
    obtain ⟨l, t⟩ := c
    obtain ⟨rfl, h⟩ : l = k ∧ Twin vis s t := h
    cases l with
    | none => exact ⟨h, rfl⟩
    | some key =>
      dsimp only
      have h := twin_gotoHead (twin_emit h .cursorOff)
      generalize gotoHead (s.emit .cursorOff) = s at h ⊢
      generalize gotoHead (t.emit .cursorOff) = t at h ⊢
      refine both_ite Iff.rfl (fun _ => ?_) fun _ => both_ite Iff.rfl (fun _ => ?_) fun _ =>
        both_ite Iff.rfl (fun _ => ?_) fun _ => both_ite Iff.rfl (fun _ => ?_) fun _ =>
        both_ite Iff.rfl (fun _ => ?_) fun _ => both_ite Iff.rfl (fun _ => ?_) fun _ => ?_
      · rw [isearchUpdate_dressed hE]
        exact both_isearchLoop hE n _ h
      · rw [h.text]
        refine both_then (both_replaceAndRepaint hE ?_ _ _) _
        obtain ⟨cs, o, hm, ho, rfl⟩ := h.elim
        exact ⟨rfl, rfl, ho⟩
      · refine both_bind (both_getView2 hE h) fun a c hac => ?_
        subst hac
        rw [h.viewStart]
        refine both_bind (both_puts hE h _ _) fun s t h => ?_
        have h := twin_gotoHead (twin_eraseline h)
        rw [h.viewStart, h.cursor]
        exact both_then (both_puts hE h _ _) _
      · refine both_bind (both_isearchPrev hE h it _ _) fun a c hac => ?_
        subst hac
        exact both_isearchLoop hE n _ h
      · refine both_bind (both_isearchNext hE h it _ _) fun a c hac => ?_
        subst hac
        exact both_isearchLoop hE n _ h
      · exact both_isearchLoop hE n _ h
      · rw [isearchUpdate_dressed hE]
        exact both_isearchLoop hE n _ h

theorem both_isearchBackward (hE : Dressed vis E F) (h : Twin vis s t) :
    Both vis (Twin2 vis) (cmdISearchBackward E s) (cmdISearchBackward F t) := by
  unfold cmdISearchBackward
  rw [h.input, hE.histLen]
  exact both_isearchLoop hE _ _ (twin_gotoHead h)

theorem both_split (h : Twin vis s t) (q d : Bytes) :
    Both vis (fun x y => y = x) (split q d s) (split q d t) := by
  unfold split
  rw [h.cursor, h.len]
  refine both_ite Iff.rfl (fun _ => ⟨rfl, h⟩) fun _ => ?_
  have e : ∀ l : List Cell, l.map (fun c => c.moji.write) = (l.map (·.moji)).map Moji.write := by
    intro l; simp [List.map_map, Function.comp_def]
  have f := h.1.take s.cursor.toNat
  unfold SameMojis at f
  show splitLoop _ _ _ _ _ _ _ = splitLoop _ _ _ _ _ _ _
  rw [e, f, e]

theorem both_removeUnmatches (h : Twin vis s t) (U : Uni) (src : Bytes) : ∀ (l m : List Bytes),
    Both vis (fun x y => y = x) (removeUnmatches U s src l m) (removeUnmatches U t src l m)
  | [], m => rfl
  | n :: l, m => by
    simp only [removeUnmatches]
    refine both_ite Iff.rfl (fun _ => ?_) fun _ => both_removeUnmatches h U src l _
    cases m with
    | nil => exact ⟨rfl, h⟩
    | cons b m =>
      exact both_bind (both_removeUnmatches h U src l _) fun a c hac => by subst hac; exact rfl

theorem both_complete (hE : Dressed vis E F) (h : Twin vis s t) (U : Uni) (K : Completer) (pf : Bytes) :
    Both vis (Twin2 vis) (complete U E K pf s) (complete U F K pf t) := by
  unfold complete
  refine both_bind (both_split h _ _) fun a c hac => ?_
  subst hac
  obtain ⟨fields, last⟩ := c
  dsimp only
  cases fields.getLast? with
  | none => exact ⟨h, rfl⟩
  | some field =>
    dsimp only
    refine both_bind (both_removeUnmatches h U _ _ _) fun a c hac => ?_
    subst hac
    obtain ⟨list, base⟩ := c
    dsimp only
    rcases list with _ | ⟨x, _ | ⟨y, l⟩⟩
    · exact ⟨h, rfl⟩
    · exact both_ite Iff.rfl (fun _ => ⟨twin_emit h _, rfl⟩) fun _ =>
        both_bind (both_replaceAndRepaint hE h _ _) fun _ _ h => ⟨h, rfl⟩
    · dsimp only
      cases commonPrefix U (x :: y :: l) with
      | none => exact ⟨rfl, h⟩
      | some p =>
        exact both_ite Iff.rfl (fun _ => ⟨twin_emit h _, rfl⟩) fun _ =>
          both_bind (both_replaceAndRepaint hE h _ _) fun _ _ h => ⟨h, rfl⟩

theorem both_cmdComplete (hE : Dressed vis E F) (h : Twin vis s t) (P : Completing) :
    Both vis (Twin2 vis) (cmdComplete E P s) (cmdComplete F P t) := by
  unfold cmdComplete
  cases P.box with
  | none => exact both_bind (both_complete hE h _ _ _) fun _ _ h => ⟨h.1, rfl⟩
  | some box =>
    refine both_bind (both_complete hE h _ _ _) fun a c hac => ?_
    obtain ⟨s, i⟩ := a
    obtain ⟨t, j⟩ := c
    obtain ⟨h, rfl⟩ : Twin vis s t ∧ j = i := hac
    exact both_ite Iff.rfl (fun _ => both_then (both_repaintAll hE (twin_emit (twin_emit h _) _)) _)
      fun _ => ⟨h, rfl⟩

/-- Every command does the same to twins. -/
theorem both_call (hE : Dressed vis E F) (h : Twin vis s t) {c : Cmd} (hc : ∀ f, c = .custom f → Unseeing vis f) :
    Both vis (Twin2 vis) (Cmd.call E c s) (Cmd.call F c t) := by
  cases c with
  | acceptLine => exact ⟨h, rfl⟩
  | interrupt => obtain ⟨cs, o, hm, ho, rfl⟩ := h.elim; exact ⟨⟨rfl, rfl, ho⟩, rfl⟩
  | beginningOfLine => exact both_beginningOfLine hE h
  | backwardChar => exact both_backwardChar hE h
  | endOfLine => exact both_endOfLine hE h
  | forwardChar => exact both_forwardChar hE h
  | backwardDeleteChar => exact both_backwardDeleteChar hE h
  | deleteChar => exact both_deleteChar hE h
  | deleteOrAbort => exact both_deleteOrAbort hE h
  | killLine => exact both_killLine hE h
  | killWholeLine => exact both_killWholeLine h
  | unixWordRubout => exact both_unixWordRubout hE h
  | unixLineDiscard => exact both_unixLineDiscard hE h
  | clearScreen => exact both_clearScreen hE h
  | repaintOnNewline => exact both_repaintOnNewline hE h
  | quotedInsert => exact both_quotedInsert hE h
  | yank => exact both_yank hE h
  | yankWithQuote => exact both_yankWithQuote hE h
  | swapChar => exact both_swapChar hE h
  | backwardWord => exact both_backwardWord hE h
  | forwardWord => exact both_forwardWord hE h
  | undo => exact both_undo hE h
  | previousHistory => exact both_previousHistory hE h
  | nextHistory => exact both_nextHistory hE h
  | isearchBackward => exact both_isearchBackward hE h
  | selfInsert k => exact both_selfInsert hE h k
  | completion P => exact both_cmdComplete hE h P
  | custom f => exact hc f rfl s t h

/-! ## Sessions -/

theorem lookupCommand_dressed (hE : Dressed vis E F) (k : Bytes) : lookupCommand F k = lookupCommand E k := by
  unfold lookupCommand
  rw [hE.keyMap, hE.globalKeyMap]

theorem both_onResize (hE : Dressed vis E F) (h : Twin vis s t) (w : Int) :
    Both vis (Twin vis) (onResize E s w) (onResize F t w) := by
  refine both_repaintLastLine hE (twin_resetViewStart hE ?_)
  obtain ⟨cs, o, hm, ho, rfl⟩ := h.elim
  exact ⟨hm, rfl, ho⟩

theorem both_finish (hE : Dressed vis E F) (h : Twin vis s t) (r : Result) :
    Both vis (Twin2 vis) (finish E s r) (finish F t r) := by
  unfold finish
  rw [h.suffix]
  refine both_bind (Q := Twin vis) ?_ fun s t h => ?_
  · cases s.suffix with
    | none => exact h
    | some x =>
      refine both_repaintNoSuffix hE ?_
      obtain ⟨cs, o, hm, ho, rfl⟩ := h.elim
      exact ⟨hm, rfl, ho⟩
  · have h : Twin vis (match E.lineFeed with
          | some f => s.emit (.lit (f r)) | none => s.emit (.lit [0x0A]))
        (match F.lineFeed with
          | some f => t.emit (.lit (f r)) | none => t.emit (.lit [0x0A])) := by
      have e := hE.seeFeed r
      cases hf : E.lineFeed <;> cases hg : F.lineFeed <;> rw [hf, hg] at e <;> exact twin_emit_eq h e
    have h := twin_emit h .flush
    refine both_pure ⟨twin_emit (twin_emit h _) _, ?_⟩
    have f := h.text
    exact congrArg (fun x => RLRes.mk x _) f

theorem both_execCmd (hE : Dressed vis E F) (h : Twin vis s t) {c : Cmd}
    (hc : ∀ f, c = .custom f → Unseeing vis f) : Both vis (Twin2 vis) (execCmd E c s) (execCmd F c t) := by
  unfold execCmd
  refine both_bind (both_call hE (twin_emit h _) hc) fun a d hac => ?_
  obtain ⟨s, i⟩ := a
  obtain ⟨t, j⟩ := d
  obtain ⟨h, rfl⟩ : Twin vis s t ∧ j = i := hac
  dsimp only
  have h := twin_emit h .cursorOn
  cases j with
  | cont => exact ⟨h, rfl⟩
  | _ => exact both_bind (both_finish hE h _) fun a c hac => ⟨hac.1, congrArg some hac.2⟩

theorem both_step (hE : Dressed vis E F) (hU : E.Unseeing vis) (h : Twin vis s t) :
    Both vis (Twin2 vis) (step E s) (step F t) := by
  unfold step
  rw [h.input]
  rcases s.input with _ | ⟨k | e | w, rest⟩
  · exact ⟨twin_emit (twin_emit (twin_emit h _) _) _, rfl⟩
  · dsimp only
    rw [lookupCommand_dressed hE]
    refine both_execCmd hE ?_ fun f hf => hU k f hf
    have h := twin_emit h .await
    obtain ⟨cs, o, hm, ho, e⟩ := h.elim
    rw [e]
    exact ⟨hm, rfl, ho⟩
  · refine ⟨twin_emit (twin_emit ?_ _) _, rfl⟩
    have h := twin_emit h .await
    obtain ⟨cs, o, hm, ho, e⟩ := h.elim
    rw [e]
    exact ⟨hm, rfl, ho⟩
  · refine both_bind (both_onResize hE ?_ w) fun _ _ h => ⟨h, rfl⟩
    obtain ⟨cs, o, hm, ho, rfl⟩ := h.elim
    exact ⟨hm, rfl, ho⟩

theorem both_loop (hE : Dressed vis E F) (hU : E.Unseeing vis) : ∀ (n : Nat) {s t : St} (_ : Twin vis s t),
    Both vis (Twin2 vis) (loop E n s) (loop F n t)
  | 0, s, t, h => ⟨rfl, h⟩
  | n + 1, s, t, h => by
    simp only [loop]
    refine both_bind (both_step hE hU h) fun a c hac => ?_
    obtain ⟨s, i⟩ := a
    obtain ⟨t, j⟩ := c
    obtain ⟨h, rfl⟩ : Twin vis s t ∧ j = i := hac
    cases j with
    | none => exact both_loop hE hU n h
    | some r => exact ⟨h, rfl⟩

theorem twin_top (h : Twin vis s t) (c : Int) :
    Twin vis { s with topColumn := c } { t with topColumn := c } := by
  obtain ⟨cs, o, hm, ho, rfl⟩ := h.elim; exact ⟨hm, rfl, ho⟩

theorem twin_promptSt (hE : Dressed vis E F) {w v : World} (hv : v = { w with out := v.out })
    (ho : v.out.filterMap vis = w.out.filterMap vis) :
    Twin vis (promptSt E w) (promptSt F v) := by
  rw [hv]
  unfold promptSt
  rw [hE.histLen]
  have h₀ : Twin vis
      { cursor := w.cursor, clip := w.clip, termWidth := w.termWidth, input := w.input,
        out := w.out, promptN := w.promptN, histPtr := E.histLen }
      { cursor := w.cursor, clip := w.clip, termWidth := w.termWidth, input := w.input,
        out := v.out, promptN := w.promptN, histPtr := E.histLen } := ⟨rfl, rfl, ho⟩
  have h := twin_callPromptWriter hE h₀
  dsimp only at h ⊢
  obtain ⟨h1, h⟩ := h
  have he := hE.err
  cases hp : E.promptErr <;> cases hq : F.promptErr <;> rw [hp, hq] at he
  · dsimp only
    rw [h1]
    refine twin_ite (by rw [h.termWidth]) (fun _ => ?_) fun _ => twin_top h _
    exact twin_top (twin_emit h _) _
  · cases he
  · cases he
  · exact twin_top (twin_emit_eq h (hE.seeErr _ _ hp hq)) _

theorem both_startSt (hE : Dressed vis E F) {w v : World} (hv : v = { w with out := v.out })
    (ho : v.out.filterMap vis = w.out.filterMap vis) :
    Both vis (Twin vis) (startSt E w) (startSt F v) := by
  unfold startSt
  rw [hE.default]
  refine both_bind (both_insertString hE (twin_promptSt hE hv ho) _ _) fun a c hac => ?_
  obtain ⟨s, i⟩ := a
  obtain ⟨t, j⟩ := c
  obtain ⟨h, rfl⟩ : Twin vis s t ∧ j = i := hac
  refine both_bind (both_repaintAfterPrompt hE ?_) fun _ _ h => twin_emit h _
  refine twin_ite (by rw [h.cursor, h.len]) (fun _ => ?_) fun _ => h
  rw [h.len]
  exact twin_cursor h _

/-- Two sessions of editors that differ at most in what they write. -/
theorem both_readLine (hE : Dressed vis E F) (hU : E.Unseeing vis) {w v : World}
    (hv : v = { w with out := v.out })
    (ho : v.out.filterMap vis = w.out.filterMap vis) : Both vis (Twin2 vis) (readLine E w) (readLine F v) := by
  unfold readLine
  refine both_bind (both_startSt hE hv ho) fun s t h => ?_
  rw [h.input]
  exact both_loop hE hU _ h

end Readline
