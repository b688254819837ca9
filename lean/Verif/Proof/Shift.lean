import Verif.Model.ReadLine
import Verif.Proof.Completion
/-!
# Output already written and input not read make no difference

`s.io i p` is the state `s` with the output `p` written before and the input `i`.  Every function
of the model but the two commands that read keys does the same to `s.io i p` as to `s`.
-/
namespace Readline

/-- The state with the output `p` written before and the input `i`. -/
def St.io (s : St) (i : List Ev) (p : List Tok) : St := { s with input := i, out := p ++ s.out }

variable {E : Env} {i : List Ev} {p : List Tok}

/-- The same outcome under `φ`. -/
def under (i : List Ev) (p : List Tok) (φ : α → β) : M α → M β
  | .ok a => .ok (φ a)
  | .error e => .error ⟨e.kind, e.st.io i p⟩

/-- On states. -/
abbrev under1 (i : List Ev) (p : List Tok) (x : M St) : M St := under i p (fun s => s.io i p) x

/-- On states with something else. -/
abbrev under2 (i : List Ev) (p : List Tok) (x : M (St × α)) : M (St × α) :=
  under i p (fun a => (a.1.io i p, a.2)) x

theorem under_bind {φ : α → α'} {ψ : β → β'} {x : M α} {k : α' → M β'} {k' : α → M β}
    (h : ∀ a, k (φ a) = under i p ψ (k' a)) :
    (under i p φ x >>= k) = under i p ψ (x >>= k') := by
  cases x with
  | ok a => exact h a
  | error e => rfl

theorem under_ite {φ : α → β} {c c' : Prop} [Decidable c] [Decidable c'] {x y : M β} {x' y' : M α}
    (h : c ↔ c') (hx : c' → x = under i p φ x') (hy : ¬ c' → y = under i p φ y') :
    (if c then x else y) = under i p φ (if c' then x' else y') := by
  by_cases hc : c'
  · rw [if_pos hc, if_pos (h.mpr hc)]; exact hx hc
  · rw [if_neg hc, if_neg (mt h.mp hc)]; exact hy hc

theorem io_ite {c c' : Prop} [Decidable c] [Decidable c'] {x y x' y' : St}
    (h : c ↔ c') (hx : x = x'.io i p) (hy : y = y'.io i p) :
    (if c then x else y) = (if c' then x' else y').io i p := by
  by_cases hc : c'
  · rw [if_pos hc, if_pos (h.mpr hc)]; exact hx
  · rw [if_neg hc, if_neg (mt h.mp hc)]; exact hy

theorem under_ok {φ : α → β} (a : α) : (.ok (φ a) : M β) = under i p φ (.ok a) := rfl

theorem under_pure {φ : α → β} (a : α) : (pure (φ a) : M β) = under i p φ (pure a) := rfl

section fields
variable (s : St)
@[simp] theorem io_buf : (s.io i p).buf = s.buf := rfl
@[simp] theorem io_cursor : (s.io i p).cursor = s.cursor := rfl
@[simp] theorem io_suffix : (s.io i p).suffix = s.suffix := rfl
@[simp] theorem io_viewStart : (s.io i p).viewStart = s.viewStart := rfl
@[simp] theorem io_termWidth : (s.io i p).termWidth = s.termWidth := rfl
@[simp] theorem io_topColumn : (s.io i p).topColumn = s.topColumn := rfl
@[simp] theorem io_histPtr : (s.io i p).histPtr = s.histPtr := rfl
@[simp] theorem io_undoes : (s.io i p).undoes = s.undoes := rfl
@[simp] theorem io_pending : (s.io i p).pending = s.pending := rfl
@[simp] theorem io_modHist : (s.io i p).modHist = s.modHist := rfl
@[simp] theorem io_clip : (s.io i p).clip = s.clip := rfl
@[simp] theorem io_promptN : (s.io i p).promptN = s.promptN := rfl
@[simp] theorem io_len : (s.io i p).len = s.len := rfl
@[simp] theorem io_text : (s.io i p).text = s.text := rfl
@[simp] theorem io_viewWidth : (s.io i p).viewWidth = s.viewWidth := rfl
@[simp] theorem io_suffixList : (s.io i p).suffixList = s.suffixList := rfl
@[simp] theorem io_visibleSuffix : (s.io i p).visibleSuffix E = s.visibleSuffix E := rfl
end fields

theorem emit_io (s : St) (t : Tok) : (s.io i p).emit t = (s.emit t).io i p := by
  simp [St.emit, St.io]

theorem slice_io (s : St) (l : List α) (lo hi : Int) :
    slice (s.io i p) l lo hi = under i p id (slice s l lo hi) := by
  unfold slice
  repeat' split
  all_goals rfl

theorem index_io (s : St) (l : List α) (n : Int) :
    index (s.io i p) l n = under i p id (index s l n) := by
  unfold index
  repeat' split
  all_goals rfl

theorem printMoji_io (s : St) (m : Moji) : printMoji (s.io i p) m = under1 i p (printMoji s m) := by
  unfold printMoji
  rw [emit_io]
  split <;> rfl

theorem updateSuffix_io (s : St) : updateSuffix E (s.io i p) = (updateSuffix E s).io i p := by
  unfold updateSuffix
  exact io_ite Iff.rfl rfl (io_ite Iff.rfl rfl rfl)

theorem getView_io (s : St) : getView E (s.io i p) = under i p id (getView E s) := by
  unfold getView
  simp only [io_buf, io_viewStart, io_len, io_viewWidth]
  rw [slice_io]
  exact under_bind fun a => rfl

theorem bufInsert_io (s : St) (pos : Int) (cs : List Cell) :
    bufInsert (s.io i p) pos cs = under i p id (bufInsert s pos cs) := by
  unfold bufInsert
  exact under_ite Iff.rfl (fun _ => rfl) (fun _ => rfl)

theorem bufDelete_io (s : St) (pos : Int) (n : Nat) :
    bufDelete (s.io i p) pos n = under i p id (bufDelete s pos n) := by
  unfold bufDelete
  exact under_ite Iff.rfl (fun _ => rfl) (fun _ => rfl)

theorem insertCells_io (s : St) (pos : Int) (cs : List Cell) :
    insertCells (s.io i p) pos cs = under1 i p (insertCells s pos cs) := by
  unfold insertCells
  rw [bufInsert_io]
  exact under_bind fun a => rfl

theorem insertString_io (s : St) (pos : Int) (str : Bytes) :
    insertString E (s.io i p) pos str = under2 i p (insertString E s pos str) := by
  unfold insertString
  dsimp only
  rw [insertCells_io]
  exact under_bind fun a => rfl

theorem deleteCells_io (s : St) (pos n : Int) :
    deleteCells E (s.io i p) pos n = under2 i p (deleteCells E s pos n) := by
  unfold deleteCells
  refine under_ite Iff.rfl (fun _ => rfl) (fun _ => ?_)
  rw [io_buf, slice_io]
  refine under_bind fun a => ?_
  exact (congrArg (· >>= _) (bufDelete_io
    { s with undoes := { pos := pos, del := 0, text := cell2string a } :: s.undoes } pos n.toNat)).trans
    (under_bind fun a => rfl)

theorem resetViewStart_io (s : St) : resetViewStart E (s.io i p) = (resetViewStart E s).io i p := rfl

theorem widthBetween_io (s : St) (lo hi : Int) :
    widthBetween E (s.io i p) lo hi = under i p id (widthBetween E s lo hi) := by
  unfold widthBetween
  rw [io_buf, slice_io]
  exact under_bind fun a => rfl

theorem subString_io (s : St) (lo hi : Int) :
    subString (s.io i p) lo hi = under i p id (subString s lo hi) := by
  unfold subString
  rw [io_buf, slice_io]
  exact under_bind fun a => rfl

theorem currentWordTop_io (s : St) :
    currentWordTop E (s.io i p) = under i p id (currentWordTop E s) := by
  unfold currentWordTop
  rw [io_buf, slice_io]
  exact under_bind fun a => rfl

theorem joinUndo_io (s : St) : joinUndo (s.io i p) = (joinUndo s).io i p := by
  unfold joinUndo
  rw [io_undoes]
  repeat' split
  all_goals rfl

theorem refreshColor_io (s : St) : refreshColor E (s.io i p) = under1 i p (refreshColor E s) := by
  unfold refreshColor
  rw [io_buf]
  split <;> rfl

theorem putsLoop_io (cs : List Cell) (c : Color) (s : St) :
    putsLoop cs c (s.io i p) = under2 i p (putsLoop cs c s) := by
  induction cs generalizing c s with
  | nil => rfl
  | cons x cs ih =>
    rw [putsLoop, putsLoop]
    split
    · rw [emit_io, printMoji_io]; exact under_bind fun a => ih _ _
    · rw [printMoji_io]; exact under_bind fun a => ih _ _

theorem puts_io (s : St) (lo hi : Int) : puts E (s.io i p) lo hi = under1 i p (puts E s lo hi) := by
  unfold puts
  rw [io_buf, slice_io]
  refine under_bind fun _ => ?_
  rw [refreshColor_io]
  refine under_bind fun s => ?_
  rw [io_buf, slice_io]
  refine under_bind fun cs => ?_
  rw [id, putsLoop_io]
  refine under_bind fun a => ?_
  dsimp only
  split
  · rw [emit_io]; rfl
  · rfl

theorem gotoHead_io (s : St) : gotoHead (s.io i p) = (gotoHead s).io i p := emit_io _ _

theorem eraseline_io (s : St) : eraseline (s.io i p) = (eraseline s).io i p := emit_io _ _

theorem suffixLoop_io (C : Cfg) (vw : Int) (ms : List Moji) (w : Int) (s : St) :
    suffixLoop C vw ms w (s.io i p) = under1 i p (suffixLoop C vw ms w s) := by
  induction ms generalizing w s with
  | nil => rfl
  | cons x cs ih =>
    rw [suffixLoop, suffixLoop]
    split
    · rfl
    · rw [printMoji_io]
      refine under_bind fun a => ?_
      exact ih _ _

theorem getView2_io (s : St) : getView2 E (s.io i p) = under i p id (getView2 E s) := by
  unfold getView2
  rw [getView_io]
  refine under_bind fun a => ?_
  simp only [io_buf, io_viewStart, io_cursor, id]
  rw [slice_io]
  exact under_bind fun _ => rfl

theorem repaintNoSuffix_io (s : St) :
    repaintNoSuffix E (s.io i p) = under1 i p (repaintNoSuffix E s) := by
  unfold repaintNoSuffix
  rw [getView2_io]
  refine under_bind fun a => ?_
  dsimp only [id]
  simp only [gotoHead_io, io_viewStart]
  rw [puts_io]
  refine under_bind fun s => ?_
  have hif : (if E.predictColor.1 ≠ [] ∧ (s.io i p).suffixList.length > 0 then do
      let s ← suffixLoop E.cfg ((s.io i p).emit (.lit E.predictColor.1)).viewWidth
        (((s.io i p).emit (.lit E.predictColor.1)).visibleSuffix E) a.2 ((s.io i p).emit (.lit E.predictColor.1))
      return s.emit (.lit E.predictColor.2)
    else return s.io i p) = under1 i p (if E.predictColor.1 ≠ [] ∧ s.suffixList.length > 0 then do
      let s ← suffixLoop E.cfg (s.emit (.lit E.predictColor.1)).viewWidth
        ((s.emit (.lit E.predictColor.1)).visibleSuffix E) a.2 (s.emit (.lit E.predictColor.1))
      return s.emit (.lit E.predictColor.2)
    else return s) := by
    rw [io_suffixList]
    split
    · simp only [emit_io, io_viewWidth, io_visibleSuffix]
      rw [suffixLoop_io]
      refine under_bind fun s => ?_
      rw [emit_io]; rfl
    · rfl
  refine (congrArg (· >>= _) hif).trans (under_bind fun s => ?_)
  simp only [eraseline_io, gotoHead_io, io_viewStart, io_cursor]
  rw [puts_io]

theorem repaint_io (s : St) : repaint E (s.io i p) = under1 i p (repaint E s) := by
  unfold repaint
  rw [updateSuffix_io, repaintNoSuffix_io]

theorem replaceAndRepaint_io (s : St) (pos : Int) (str : Bytes) :
    replaceAndRepaint E (s.io i p) pos str = under1 i p (replaceAndRepaint E s pos str) := by
  unfold replaceAndRepaint
  rw [io_cursor, deleteCells_io]
  refine under_bind fun a => ?_
  dsimp only
  rw [insertString_io]
  refine under_bind fun b => ?_
  have h := joinUndo_io (i := i) (p := p) { b.1 with cursor := pos + b.2.length }
  have h2 := repaint_io (E := E) (i := i) (p := p)
    (resetViewStart E (joinUndo { b.1 with cursor := pos + b.2.length }))
  rw [← resetViewStart_io, ← h] at h2
  exact h2

theorem insertAndRepaint_io (s : St) (str : Bytes) :
    insertAndRepaint E (s.io i p) str = under1 i p (insertAndRepaint E s str) :=
  replaceAndRepaint_io _ _ _

theorem repaintAfterPrompt_io (s : St) :
    repaintAfterPrompt E (s.io i p) = under1 i p (repaintAfterPrompt E s) := repaint_io (resetViewStart E s)

theorem callPromptWriter_io (s : St) :
    callPromptWriter E (s.io i p) = ((callPromptWriter E s).1, (callPromptWriter E s).2.io i p) := by
  unfold callPromptWriter
  split
  · rw [emit_io]
  · rename_i pr _
    exact congrArg (Prod.mk _) (emit_io { s with promptN := s.promptN + 1 } (.lit (pr s.promptN)))

theorem repaintAll_io (s : St) : repaintAll E (s.io i p) = under1 i p (repaintAll E s) := by
  unfold repaintAll
  dsimp only
  rw [emit_io, callPromptWriter_io]
  exact repaint_io { (callPromptWriter E (s.emit .flush)).2 with
    topColumn := (callPromptWriter E (s.emit .flush)).1 }

theorem repaintLastLine_io (s : St) :
    repaintLastLine E (s.io i p) = under1 i p (repaintLastLine E s) := by
  unfold repaintLastLine
  dsimp only
  rw [emit_io]
  split
  · rw [emit_io]; exact repaint_io _
  · rename_i pr _
    exact (congrArg (repaint E) (emit_io { s.emit .flush with promptN := (s.emit .flush).promptN + 1 }
      (.lit ((0x0D :: pr (s.emit .flush).promptN).map (fun b => if b = 0x0A then 0x0D else b))))).trans
      (repaint_io _)

theorem onResize_io (s : St) (w : Int) : onResize E (s.io i p) w = under1 i p (onResize E s w) :=
  repaintLastLine_io (resetViewStart E { s with termWidth := w })

/-! ## Commands -/

theorem cmdBeginningOfLine_io (s : St) :
    cmdBeginningOfLine E (s.io i p) = under2 i p (cmdBeginningOfLine E s) := by
  unfold cmdBeginningOfLine
  have h := repaint_io (E := E) (i := i) (p := p) { s with cursor := 0, viewStart := 0 }
  exact (congrArg (· >>= _) h).trans (under_bind fun _ => rfl)

theorem cmdBackwardChar_io (s : St) :
    cmdBackwardChar E (s.io i p) = under2 i p (cmdBackwardChar E s) := by
  unfold cmdBackwardChar
  refine under_ite Iff.rfl (fun _ => rfl) (fun _ => ?_)
  have h := repaint_io (E := E) (i := i) (p := p) { s with
    cursor := s.cursor - 1, viewStart := if s.cursor - 1 < s.viewStart then s.viewStart - 1 else s.viewStart }
  exact (congrArg (· >>= _) h).trans (under_bind fun _ => rfl)

theorem cmdEndOfLine_io (s : St) :
    cmdEndOfLine E (s.io i p) = under2 i p (cmdEndOfLine E s) := by
  unfold cmdEndOfLine
  simp only [io_viewStart, io_len, io_viewWidth, io_cursor]
  rw [widthBetween_io]
  refine under_bind fun a => ?_
  refine under_ite Iff.rfl (fun _ => ?_) (fun _ => ?_)
  · rw [puts_io]
    refine under_bind fun s => ?_
    exact congrArg (fun s => Except.ok (s, Result.cont)) (eraseline_io { s with cursor := s.len })
  · simp only [gotoHead_io, io_buf, io_len, io_viewWidth]
    rw [index_io]
    refine under_bind fun c => ?_
    have h := fun vs : Int => puts_io (E := E) (i := i) (p := p) { gotoHead s with viewStart := vs } vs (gotoHead s).len
    refine (congrArg (· >>= _) (h _)).trans (under_bind fun s => ?_)
    exact congrArg (fun s => Except.ok (s, Result.cont)) (eraseline_io { s with cursor := s.len })

theorem cmdForwardChar_io (s : St) :
    cmdForwardChar E (s.io i p) = under2 i p (cmdForwardChar E s) := by
  unfold cmdForwardChar
  refine under_ite Iff.rfl (fun _ => ?_) (fun _ => ?_)
  · refine under_ite Iff.rfl (fun _ => ?_) (fun _ => rfl)
    rw [insertAndRepaint_io]
    exact under_bind fun _ => rfl
  · simp only [io_viewStart, io_cursor, io_viewWidth]
    rw [widthBetween_io]
    refine under_bind fun a => ?_
    refine under_ite Iff.rfl (fun _ => ?_) (fun _ => ?_)
    · rw [puts_io]
      exact under_bind fun _ => rfl
    · simp only [gotoHead_io, io_buf, io_cursor, io_viewStart]
      rw [index_io]
      refine under_bind fun c => ?_
      rw [index_io]
      refine under_bind fun v => ?_
      have h := fun vs : Int => puts_io (E := E) (i := i) (p := p) { gotoHead s with viewStart := vs } vs ((gotoHead s).cursor + 1)
      refine (congrArg (· >>= _) (h _)).trans (under_bind fun s => ?_)
      simp only [eraseline_io]
      rfl

theorem cmdBackwardDeleteChar_io (s : St) :
    cmdBackwardDeleteChar E (s.io i p) = under2 i p (cmdBackwardDeleteChar E s) := by
  unfold cmdBackwardDeleteChar
  refine under_ite Iff.rfl (fun _ => ?_) (fun _ => rfl)
  have h := deleteCells_io (E := E) (i := i) (p := p) { s with cursor := s.cursor - 1 } (s.cursor - 1) 1
  refine (congrArg (· >>= _) h).trans (under_bind fun a => ?_)
  have h2 : (if (a.1.io i p).cursor < (a.1.io i p).viewStart then
      { a.1.io i p with viewStart := (a.1.io i p).cursor } else a.1.io i p) =
      (if a.1.cursor < a.1.viewStart then { a.1 with viewStart := a.1.cursor } else a.1).io i p :=
    io_ite Iff.rfl rfl rfl
  refine (congrArg (fun s => repaint E s >>= _) h2).trans ?_
  rw [repaint_io]
  exact under_bind fun _ => rfl

theorem cmdDeleteChar_io (s : St) :
    cmdDeleteChar E (s.io i p) = under2 i p (cmdDeleteChar E s) := by
  unfold cmdDeleteChar
  rw [io_cursor, deleteCells_io]
  refine under_bind fun a => ?_
  dsimp only
  rw [repaint_io]
  exact under_bind fun _ => rfl

theorem cmdDeleteOrAbort_io (s : St) :
    cmdDeleteOrAbort E (s.io i p) = under2 i p (cmdDeleteOrAbort E s) := by
  unfold cmdDeleteOrAbort
  exact under_ite Iff.rfl (fun _ => cmdDeleteChar_io s) (fun _ => rfl)

theorem selfInsertTail_io (s : St) (keys : Bytes) :
    selfInsertTail E (s.io i p) keys = under2 i p (selfInsertTail E s keys) := by
  unfold selfInsertTail
  rw [io_cursor, insertString_io]
  refine under_bind fun a => ?_
  simp only [io_viewStart, io_cursor]
  rw [widthBetween_io]
  refine under_bind fun w => ?_
  have h2 : (if w + cellsWidth E.cfg a.2 ≥ St.viewWidth { a.1.io i p with cursor := a.1.cursor + a.2.length } then
      resetViewStart E { a.1.io i p with cursor := a.1.cursor + a.2.length }
      else { a.1.io i p with cursor := a.1.cursor + a.2.length }) =
      (if w + cellsWidth E.cfg a.2 ≥ St.viewWidth { a.1 with cursor := a.1.cursor + a.2.length } then
      resetViewStart E { a.1 with cursor := a.1.cursor + a.2.length }
      else { a.1 with cursor := a.1.cursor + a.2.length }).io i p :=
    io_ite Iff.rfl rfl rfl
  refine (congrArg (fun s => repaint E s >>= _) h2).trans ?_
  rw [repaint_io]
  exact under_bind fun _ => rfl

theorem cmdSelfInsert_io (s : St) (k : Bytes) :
    cmdSelfInsert E k (s.io i p) = under2 i p (cmdSelfInsert E k s) := by
  unfold cmdSelfInsert
  dsimp only
  refine under_ite Iff.rfl (fun _ => ?_) (fun _ => ?_)
  · simp only [io_buf, io_cursor]
    rw [index_io]
    refine under_bind fun c => ?_
    exact cmdBackwardDeleteChar_io { s with pending := c.moji.write ++ stripAlt k }
  · refine under_ite Iff.rfl (fun _ => ?_) (fun _ => ?_)
    · simp only [io_buf, io_cursor]
      rw [index_io]
      refine under_bind fun c => ?_
      rw [cmdBackwardDeleteChar_io]
      refine under_bind fun a => ?_
      exact selfInsertTail_io _ _
    · refine under_ite Iff.rfl (fun _ => ?_) (fun _ => ?_)
      · exact selfInsertTail_io { s with pending := [] } (s.pending ++ stripAlt k)
      · exact selfInsertTail_io _ _

theorem cmdKillLine_io (s : St) :
    cmdKillLine E (s.io i p) = under2 i p (cmdKillLine E s) := by
  unfold cmdKillLine
  simp only [io_cursor, io_len]
  rw [subString_io]
  refine under_bind fun t => ?_
  dsimp only [id]
  have h : ∀ u : St, (slice (u.io i p) (u.io i p).buf (u.io i p).cursor (u.io i p).len >>= fun tail =>
      slice (u.io i p) (u.io i p).buf 0 (u.io i p).cursor >>= fun head =>
      pure ({ u.io i p with undoes := { pos := (u.io i p).cursor, del := 0, text := cell2string tail } :: (u.io i p).undoes, buf := head }, Result.cont)) =
      under2 i p (slice u u.buf u.cursor u.len >>= fun tail =>
      slice u u.buf 0 u.cursor >>= fun head =>
      pure ({ u with undoes := { pos := u.cursor, del := 0, text := cell2string tail } :: u.undoes, buf := head }, Result.cont)) := by
    intro u
    simp only [io_buf, io_cursor, io_len]
    rw [slice_io]
    refine under_bind fun tl => ?_
    rw [slice_io]
    exact under_bind fun hd => rfl
  have h2 := h (eraseline { s with clip := E.clipSet s.clip t })
  rw [← eraseline_io] at h2
  exact h2

theorem cmdKillWholeLine_io (s : St) :
    cmdKillWholeLine (s.io i p) = under2 i p (cmdKillWholeLine s) := by
  unfold cmdKillWholeLine
  have h : eraseline (gotoHead { s.io i p with
        undoes := { pos := 0, del := 0, text := (s.io i p).text } :: (s.io i p).undoes }) =
      (eraseline (gotoHead { s with undoes := { pos := 0, del := 0, text := s.text } :: s.undoes })).io i p := by
    rw [← eraseline_io, ← gotoHead_io]; rfl
  dsimp only
  rw [h]
  rfl

theorem checkCursor_io (s : St) : checkCursor (s.io i p) = under i p id (checkCursor s) := by
  unfold checkCursor
  exact under_ite Iff.rfl (fun _ => under_ite Iff.rfl (fun _ => rfl) (fun _ => rfl)) (fun _ => rfl)

theorem cmdUnixWordRubout_io (s : St) :
    cmdUnixWordRubout E (s.io i p) = under2 i p (cmdUnixWordRubout E s) := by
  unfold cmdUnixWordRubout
  rw [checkCursor_io]
  refine under_bind fun _ => ?_
  have h1 := currentWordTop_io (E := E) (i := i) (p := p) { s with cursor := (skipSpacesLeft s.buf s.cursor.toNat : Nat) }
  refine (congrArg (· >>= _) h1).trans (under_bind fun new => ?_)
  have h2 := subString_io (i := i) (p := p) { s with cursor := (skipSpacesLeft s.buf s.cursor.toNat : Nat) } new s.cursor
  refine (congrArg (· >>= _) h2).trans (under_bind fun t => ?_)
  have h3 := deleteCells_io (E := E) (i := i) (p := p)
    { s with cursor := (skipSpacesLeft s.buf s.cursor.toNat : Nat), clip := E.clipSet s.clip t } new (s.cursor - new)
  refine (congrArg (· >>= _) h3).trans (under_bind fun a => ?_)
  have h4 : (if new - St.viewStart { a.1.io i p with cursor := new } < 2 then
      resetViewStart E { a.1.io i p with cursor := new } else { a.1.io i p with cursor := new }) =
      (if new - St.viewStart { a.1 with cursor := new } < 2 then
      resetViewStart E { a.1 with cursor := new } else { a.1 with cursor := new }).io i p :=
    io_ite Iff.rfl rfl rfl
  refine (congrArg (fun s => repaint E s >>= _) h4).trans ?_
  rw [repaint_io]
  exact under_bind fun _ => rfl

theorem cmdUnixLineDiscard_io (s : St) :
    cmdUnixLineDiscard E (s.io i p) = under2 i p (cmdUnixLineDiscard E s) := by
  unfold cmdUnixLineDiscard
  rw [io_cursor, subString_io]
  refine under_bind fun t => ?_
  have h3 := deleteCells_io (E := E) (i := i) (p := p) { s with clip := E.clipSet s.clip t } 0 s.cursor
  refine (congrArg (· >>= _) h3).trans (under_bind fun a => ?_)
  have h := repaint_io (E := E) (i := i) (p := p) { a.1 with cursor := 0, viewStart := 0 }
  exact (congrArg (· >>= _) h).trans (under_bind fun _ => rfl)

theorem cmdClearScreen_io (s : St) :
    cmdClearScreen E (s.io i p) = under2 i p (cmdClearScreen E s) := by
  unfold cmdClearScreen
  dsimp only
  rw [emit_io, repaintAll_io]
  exact under_bind fun _ => rfl

theorem cmdRepaintOnNewline_io (s : St) :
    cmdRepaintOnNewline E (s.io i p) = under2 i p (cmdRepaintOnNewline E s) := by
  unfold cmdRepaintOnNewline
  rw [emit_io, repaintAll_io]
  exact under_bind fun _ => rfl

theorem cmdYank_io (s : St) : cmdYank E (s.io i p) = under2 i p (cmdYank E s) := by
  unfold cmdYank
  rw [io_clip]
  split
  · rfl
  · rw [insertAndRepaint_io]
    exact under_bind fun _ => rfl

theorem cmdYankWithQuote_io (s : St) :
    cmdYankWithQuote E (s.io i p) = under2 i p (cmdYankWithQuote E s) := by
  unfold cmdYankWithQuote
  rw [io_clip]
  split
  · rfl
  · rw [insertAndRepaint_io]
    exact under_bind fun _ => rfl

theorem cmdComplete_io (P : Completing) (s : St) :
    cmdComplete E P (s.io i p) = under2 i p (cmdComplete E P s) := by
  by_cases hc : s.cursor ≤ s.len
  · rw [cmdComplete_eq hc, cmdComplete_eq (s := s.io i p) hc]
    have hb : (s.io i p).before = s.before := rfl
    rw [hb]
    cases Spec.completionOf P.uni P.completer P.postfix_ s.before with
    | crash => rfl
    | nothing => rfl
    | bell l =>
      unfold Spec.Outcome.call
      cases P.box with
      | none => simp only [emit_io]; rfl
      | some box =>
        dsimp only
        split
        · simp only [emit_io]; rfl
        · simp only [emit_io]
          rw [repaintAll_io]
          exact under_bind fun _ => rfl
    | insert pos t =>
      show (replaceAndRepaint E (s.io i p) pos t >>= _) = _
      rw [replaceAndRepaint_io]
      exact under_bind fun _ => rfl
  · rw [cmdComplete_beyond hc, cmdComplete_beyond (s := s.io i p) hc]
    rfl

theorem cmdSwapChar_io (s : St) : cmdSwapChar E (s.io i p) = under2 i p (cmdSwapChar E s) := by
  unfold cmdSwapChar
  refine under_ite Iff.rfl (fun _ => ?_) (fun _ => ?_)
  · refine under_ite Iff.rfl (fun _ => rfl) (fun _ => ?_)
    simp only [io_buf, io_cursor]
    rw [slice_io]
    refine under_bind fun two => ?_
    have h1 := gotoHead_io (i := i) (p := p) { s with
      undoes := { pos := s.cursor, del := 2, text := cell2string two } :: s.undoes
      buf := swapAt s.buf (s.cursor - 2).toNat }
    refine (congrArg (fun s => puts E s s.viewStart s.cursor >>= _) h1).trans ?_
    rw [puts_io]
    exact under_bind fun _ => rfl
  · refine under_ite Iff.rfl (fun _ => rfl) (fun _ => ?_)
    simp only [io_buf, io_cursor]
    rw [slice_io]
    refine under_bind fun two => ?_
    have h1 := widthBetween_io (E := E) (i := i) (p := p) { s with
      undoes := { pos := s.cursor - 1, del := 2, text := cell2string two } :: s.undoes } s.viewStart (s.cursor + 1)
    refine (congrArg (· >>= _) h1).trans (under_bind fun w => ?_)
    have h2 := gotoHead_io (i := i) (p := p) { s with
      undoes := { pos := s.cursor - 1, del := 2, text := cell2string two } :: s.undoes
      buf := swapAt s.buf (s.cursor - 1).toNat }
    have h3 : ∀ s : St, (if w ≥ (s.io i p).viewWidth then { s.io i p with viewStart := (s.io i p).viewStart + 1 } else s.io i p) =
        (if w ≥ s.viewWidth then { s with viewStart := s.viewStart + 1 } else s).io i p :=
      fun s => io_ite Iff.rfl rfl rfl
    have h4 : ∀ s : St, (do
        let s ← puts E { s.io i p with cursor := (s.io i p).cursor + 1 } (s.io i p).viewStart ((s.io i p).cursor + 1)
        pure (s, Result.cont)) = under2 i p (do
        let s ← puts E { s with cursor := s.cursor + 1 } s.viewStart (s.cursor + 1)
        pure (s, Result.cont)) := by
      intro s
      refine (congrArg (· >>= _) (puts_io { s with cursor := s.cursor + 1 } s.viewStart (s.cursor + 1))).trans ?_
      exact under_bind fun _ => rfl
    refine Eq.trans ?_ (h4 _)
    rw [← h3, ← h2]
    rfl

theorem cmdBackwardWord_io (s : St) :
    cmdBackwardWord E (s.io i p) = under2 i p (cmdBackwardWord E s) := by
  unfold cmdBackwardWord
  rw [checkCursor_io]
  refine under_bind fun _ => ?_
  dsimp only
  have h : ∀ n : Int, (if n < (s.io i p).viewStart then { s.io i p with viewStart := n } else s.io i p) =
      (if n < s.viewStart then { s with viewStart := n } else s).io i p := fun n => io_ite Iff.rfl rfl rfl
  have h2 : ∀ (n : Int) (t : St), (repaint E { t.io i p with cursor := n } >>= fun s => pure (s, Result.cont)) =
      under2 i p (repaint E { t with cursor := n } >>= fun s => pure (s, Result.cont)) := by
    intro n t
    refine (congrArg (· >>= _) (repaint_io (E := E) (i := i) (p := p) { t with cursor := n })).trans ?_
    exact under_bind fun _ => rfl
  have h3 := h2 (skipWordLeft s.buf (skipSpacesLeft s.buf s.cursor.toNat) : Nat) (if (skipWordLeft s.buf (skipSpacesLeft s.buf s.cursor.toNat) : Nat) < s.viewStart then
    { s with viewStart := (skipWordLeft s.buf (skipSpacesLeft s.buf s.cursor.toNat) : Nat) } else s)
  rw [← h] at h3
  exact h3

theorem cmdForwardWord_io (s : St) :
    cmdForwardWord E (s.io i p) = under2 i p (cmdForwardWord E s) := by
  unfold cmdForwardWord
  rw [checkCursor_io]
  refine under_bind fun _ => ?_
  simp only [io_buf, io_cursor, io_viewStart]
  rw [widthBetween_io]
  refine under_bind fun w => ?_
  refine under_ite Iff.rfl (fun _ => ?_) (fun _ => ?_)
  · rw [puts_io]
    exact under_bind fun _ => rfl
  · have h2 := repaint_io (E := E) (i := i) (p := p)
      (resetViewStart E { s with cursor := (forwardWordPos s.buf s.cursor.toNat : Nat) })
    exact (congrArg (· >>= _) h2).trans (under_bind fun _ => rfl)

theorem histAt_io (s : St) (n : Int) : histAt E (s.io i p) n = under i p id (histAt E s n) := index_io _ _ _

theorem saveModifiedHistory_io (s : St) :
    saveModifiedHistory E (s.io i p) = under1 i p (saveModifiedHistory E s) := by
  unfold saveModifiedHistory
  have h1 : (if (s.io i p).histPtr < E.histLen then do return (← histAt E (s.io i p) (s.io i p).histPtr) == (s.io i p).text
      else pure false) = under i p id (if s.histPtr < E.histLen then do return (← histAt E s s.histPtr) == s.text
      else pure false) := by
    refine under_ite Iff.rfl (fun _ => ?_) (fun _ => rfl)
    rw [io_histPtr, histAt_io]
    exact under_bind fun _ => rfl
  refine (congrArg (· >>= _) h1).trans (under_bind fun a => ?_)
  exact under_ite Iff.rfl (fun _ => rfl) (fun _ => rfl)

theorem getHistory_io (s : St) : getHistory E (s.io i p) = under i p id (getHistory E s) := by
  unfold getHistory
  rw [io_modHist, io_histPtr]
  split
  · rfl
  · exact under_ite Iff.rfl (fun _ => rfl) (fun _ => histAt_io _ _)

theorem showHistory_io (s : St) : showHistory E (s.io i p) = under2 i p (showHistory E s) := by
  unfold showHistory
  rw [cmdKillWholeLine_io]
  refine under_bind fun a => ?_
  dsimp only
  rw [getHistory_io]
  refine under_bind fun t => ?_
  refine under_ite Iff.rfl (fun _ => ?_) (fun _ => rfl)
  rw [id, insertString_io]
  refine under_bind fun b => ?_
  have h := cmdEndOfLine_io (E := E) (i := i) (p := p) { b.1 with viewStart := 0, cursor := 0 }
  exact (congrArg (· >>= _) h).trans (under_bind fun _ => rfl)

theorem cmdPreviousHistory_io (s : St) :
    cmdPreviousHistory E (s.io i p) = under2 i p (cmdPreviousHistory E s) := by
  unfold cmdPreviousHistory
  refine under_ite Iff.rfl (fun _ => rfl) (fun _ => ?_)
  refine under_ite Iff.rfl (fun _ => rfl) (fun _ => ?_)
  have h : (if (s.io i p).histPtr ≤ 0 then { s.io i p with histPtr := E.histLen + 1 } else s.io i p) =
      (if s.histPtr ≤ 0 then { s with histPtr := E.histLen + 1 } else s).io i p := io_ite Iff.rfl rfl rfl
  dsimp only
  rw [h, saveModifiedHistory_io]
  refine under_bind fun s => ?_
  exact showHistory_io { s with histPtr := s.histPtr - 1 }

theorem cmdNextHistory_io (s : St) :
    cmdNextHistory E (s.io i p) = under2 i p (cmdNextHistory E s) := by
  unfold cmdNextHistory
  refine under_ite Iff.rfl (fun _ => rfl) (fun _ => ?_)
  refine under_ite Iff.rfl (fun _ => rfl) (fun _ => ?_)
  rw [saveModifiedHistory_io]
  refine under_bind fun s => ?_
  exact showHistory_io { s with histPtr := s.histPtr + 1 }

theorem cmdUndo_io (s : St) : cmdUndo E (s.io i p) = under2 i p (cmdUndo E s) := by
  unfold cmdUndo
  rw [io_undoes]
  split
  · rw [emit_io]; rfl
  · rename_i u rest _
    have h0 := gotoHead_io (i := i) (p := p) { s with undoes := rest }
    obtain ⟨s1, hs1⟩ : ∃ s1, gotoHead { s with undoes := rest } = s1 := ⟨_, rfl⟩
    rw [hs1] at h0
    have h0' : gotoHead { s.io i p with undoes := rest } = s1.io i p := h0
    dsimp only
    rw [h0', hs1]
    have h1 : (if u.del > 0 then bufDelete (s1.io i p) u.pos u.del else pure (s1.io i p).buf) =
        under i p id (if u.del > 0 then bufDelete s1 u.pos u.del else pure s1.buf) :=
      under_ite Iff.rfl (fun _ => bufDelete_io _ _ _) (fun _ => rfl)
    refine (congrArg (· >>= _) h1).trans (under_bind fun b1 => ?_)
    have h2 : ∀ s2 : St, (if u.text ≠ [] then do
        let b2 ← bufInsert (s2.io i p) u.pos (mojis2cells (stringToMoji E.cfg u.text))
        pure { s2.io i p with buf := b2, cursor := u.pos + (mojis2cells (stringToMoji E.cfg u.text)).length }
      else pure { s2.io i p with cursor := u.pos }) = under1 i p (if u.text ≠ [] then do
        let b2 ← bufInsert s2 u.pos (mojis2cells (stringToMoji E.cfg u.text))
        pure { s2 with buf := b2, cursor := u.pos + (mojis2cells (stringToMoji E.cfg u.text)).length }
      else pure { s2 with cursor := u.pos }) := by
      intro s2
      refine under_ite Iff.rfl (fun _ => ?_) (fun _ => rfl)
      rw [bufInsert_io]
      exact under_bind fun _ => rfl
    refine (congrArg (· >>= _) (h2 { s1 with buf := b1 })).trans (under_bind fun s3 => ?_)
    rw [resetViewStart_io, repaint_io]
    exact under_bind fun _ => rfl

end Readline
