import Verif.Proof.Safe
/-!
# What commands write, and that they end

`Quiet s s'`: from `s` to `s'` only text, colours and cursor motions were written (the text
cursor was neither hidden nor shown, no key was awaited) and no input was read.  All drawing
functions and all commands that do not read keys are quiet, from whatever state they start, and
none of them runs forever.
-/
namespace Readline

/-- The panic is not an endless loop. -/
def Halts (p : Panic) : Prop := p.kind ≠ .diverge

theorem Wp.seq {Q : Panic → Prop} {x : M α} {f : α → M β} {P : α → Prop} {R : β → Prop}
    (h : Wp Q x P) (hf : ∀ a, P a → Wp Q (f a) R) : Wp Q (x >>= f) R := by
  cases x with
  | ok a => exact hf a h
  | error e => exact h

/-- The output neither shows nor hides the cursor and does not belong to waiting for a key. -/
def Tok.quiet : Tok → Bool
  | .cursorOff | .cursorOn | .await => false
  | _ => true

structure Quiet (s s' : St) : Prop where
  out : ∃ t, s'.out = s.out ++ t ∧ ∀ x ∈ t, x.quiet = true
  input : s'.input = s.input
  width : s'.termWidth = s.termWidth

namespace Quiet
variable {s s' s1 s2 : St}

theorem refl (s : St) : Quiet s s := ⟨⟨[], by simp, by simp⟩, rfl, rfl⟩

theorem trans (h1 : Quiet s s1) (h2 : Quiet s1 s2) : Quiet s s2 := by
  obtain ⟨⟨t1, a1, b1⟩, i1, w1⟩ := h1
  obtain ⟨⟨t2, a2, b2⟩, i2, w2⟩ := h2
  refine ⟨⟨t1 ++ t2, by rw [a2, a1, List.append_assoc], ?_⟩, by rw [i2, i1], by rw [w2, w1]⟩
  intro x hx
  rcases List.mem_append.mp hx with h | h
  · exact b1 x h
  · exact b2 x h

theorem emit (h : Quiet s s1) {t : Tok} (ht : t.quiet = true := by rfl) : Quiet s (s1.emit t) := by
  refine trans h ⟨⟨[t], rfl, ?_⟩, rfl, rfl⟩
  intro x hx
  simp at hx
  rw [hx]; exact ht

/-- Anything but output, input and the width of the terminal may change. -/
theorem of (h : Quiet s s1) (ho : s2.out = s1.out := by rfl)
    (hi : s2.input = s1.input := by rfl) (hw : s2.termWidth = s1.termWidth := by rfl) : Quiet s s2 := by
  obtain ⟨⟨t, a, b⟩, i, w⟩ := h
  exact ⟨⟨t, by rw [ho, a], b⟩, by rw [hi, i], by rw [hw, w]⟩

end Quiet

section
variable {E : Env} {s : St}

theorem slice_h (s : St) (l : List α) (lo hi : Int) : Wp Halts (slice s l lo hi) (fun _ => True) := by
  unfold slice
  split
  · split
    · trivial
    · exact PanicKind.noConfusion
  · exact PanicKind.noConfusion

theorem index_h (s : St) (l : List α) (i : Int) : Wp Halts (index s l i) (fun _ => True) := by
  unfold index
  split
  · exact PanicKind.noConfusion
  · split
    · trivial
    · exact PanicKind.noConfusion

theorem printMoji_q {s0 : St} (h : Quiet s0 s) (m : Moji) : Wp Halts (printMoji s m) (Quiet s0) := by
  unfold printMoji
  split
  · exact PanicKind.noConfusion
  · exact h.emit

theorem putsLoop_q {s0 : St} (cs : List Cell) (c : Color) {s : St} (h : Quiet s0 s) :
    Wp Halts (putsLoop cs c s) (fun p => Quiet s0 p.1) := by
  induction cs generalizing c s with
  | nil => exact h
  | cons x xs ih =>
    rw [putsLoop]
    refine Wp.seq (printMoji_q (s0 := s0) ?_ _) fun s1 h1 => ih _ h1
    split
    · exact h.emit
    · exact h

theorem refreshColor_q {s0 : St} (h : Quiet s0 s) : Wp Halts (refreshColor E s) (Quiet s0) := by
  unfold refreshColor
  split
  · exact PanicKind.noConfusion
  · exact h.of

theorem puts_q {s0 : St} (h : Quiet s0 s) (lo hi : Int) : Wp Halts (puts E s lo hi) (Quiet s0) := by
  unfold puts
  refine Wp.seq (slice_h _ _ _ _) fun _ _ => ?_
  refine Wp.seq (refreshColor_q h) fun s1 h1 => ?_
  refine Wp.seq (slice_h _ _ _ _) fun cs _ => ?_
  refine Wp.seq (putsLoop_q _ _ h1) fun p h2 => ?_
  refine Wp.pure ?_
  split
  · exact h2.emit
  · exact h2

theorem suffixLoop_q {s0 : St} {C : Cfg} {vw : Int} (ms : List Moji) (w : Int) {s : St}
    (h : Quiet s0 s) : Wp Halts (suffixLoop C vw ms w s) (Quiet s0) := by
  induction ms generalizing w s with
  | nil => exact h
  | cons m ms ih =>
    rw [suffixLoop]
    split
    · exact h
    · exact Wp.seq (printMoji_q h _) fun s1 h1 => ih _ h1

theorem drawLoop_q {s0 : St} {C : Cfg} {vw : Int} (ms : List Moji) (w : Int) {s : St}
    (h : Quiet s0 s) : Wp Halts (drawLoop C vw ms w s) (Quiet s0) := by
  induction ms generalizing w s with
  | nil => exact h
  | cons m ms ih =>
    rw [drawLoop]
    split
    · exact h
    · exact Wp.seq (printMoji_q h _) fun s1 h1 => ih _ h1

theorem getView_h (E : Env) (s : St) : Wp Halts (getView E s) (fun _ => True) := by
  unfold getView
  exact Wp.seq (slice_h _ _ _ _) fun _ _ => trivial

theorem getView2_h (E : Env) (s : St) : Wp Halts (getView2 E s) (fun _ => True) := by
  unfold getView2
  refine Wp.seq (getView_h E s) fun _ _ => ?_
  exact Wp.seq (slice_h _ _ _ _) fun _ _ => trivial

theorem repaintNoSuffix_q {s0 : St} (h : Quiet s0 s) : Wp Halts (repaintNoSuffix E s) (Quiet s0) := by
  unfold repaintNoSuffix
  refine Wp.seq (getView2_h E s) fun p _ => ?_
  obtain ⟨n, w⟩ := p
  dsimp only
  refine Wp.seq (puts_q (h.emit) _ _) fun s1 h1 => ?_
  have last : ∀ s2, Quiet s0 s2 →
      Wp Halts (puts E (gotoHead (eraseline s2)) (gotoHead (eraseline s2)).viewStart
        (gotoHead (eraseline s2)).cursor) (Quiet s0) :=
    fun s2 h2 => puts_q ((h2.emit).emit) _ _
  split
  · refine Wp.seq (P := Quiet s0) ?_ last
    refine Wp.seq (suffixLoop_q _ _ (h1.emit)) fun s2 h2 => ?_
    exact h2.emit
  · exact Wp.seq (P := Quiet s0) h1 last

theorem updateSuffix_q {s0 : St} (h : Quiet s0 s) : Quiet s0 (updateSuffix E s) := by
  unfold updateSuffix
  split
  · exact h
  · split <;> exact h.of

theorem repaint_q {s0 : St} (h : Quiet s0 s) : Wp Halts (repaint E s) (Quiet s0) :=
  repaintNoSuffix_q (updateSuffix_q h)

theorem insertString_q {s0 : St} (h : Quiet s0 s) (pos : Int) (t : Bytes) :
    Wp Halts (insertString E s pos t) (fun p => Quiet s0 p.1) := by
  unfold insertString insertCells bufInsert
  dsimp only
  split
  · exact h.of
  · exact PanicKind.noConfusion

theorem bufInsert_h (s : St) (pos : Int) (cs : List Cell) :
    Wp Halts (bufInsert s pos cs) (fun _ => True) := by
  unfold bufInsert
  split
  · trivial
  · exact PanicKind.noConfusion

theorem bufDelete_h (s : St) (pos : Int) (n : Nat) : Wp Halts (bufDelete s pos n) (fun _ => True) := by
  unfold bufDelete
  split
  · trivial
  · exact PanicKind.noConfusion

theorem deleteCells_q {s0 : St} (h : Quiet s0 s) (pos n : Int) :
    Wp Halts (deleteCells E s pos n) (fun p => Quiet s0 p.1) := by
  unfold deleteCells
  split
  · exact h
  · refine Wp.seq (slice_h _ _ _ _) fun _ _ => ?_
    dsimp only
    exact Wp.seq (bufDelete_h _ _ _) fun _ _ => h.of

theorem joinUndo_q {s0 : St} (h : Quiet s0 s) : Quiet s0 (joinUndo s) := by
  unfold joinUndo
  split
  · split
    · exact h
    · split
      · exact h
      · split
        · exact h
        · exact h.of
  · exact h

theorem replaceAndRepaint_q {s0 : St} (h : Quiet s0 s) (pos : Int) (t : Bytes) :
    Wp Halts (replaceAndRepaint E s pos t) (Quiet s0) := by
  unfold replaceAndRepaint
  refine Wp.seq (deleteCells_q h _ _) fun p h1 => ?_
  obtain ⟨s1, n⟩ := p
  dsimp only
  refine Wp.seq (insertString_q h1 _ _) fun p h2 => ?_
  obtain ⟨s2, ins⟩ := p
  dsimp only
  refine repaint_q ?_
  have : Quiet s0 (joinUndo { s2 with cursor := pos + ins.length }) := joinUndo_q (h2.of)
  exact this.of

theorem widthBetween_h (E : Env) (s : St) (lo hi : Int) :
    Wp Halts (widthBetween E s lo hi) (fun _ => True) := by
  unfold widthBetween
  exact Wp.seq (slice_h _ _ _ _) fun _ _ => trivial

theorem subString_h (s : St) (lo hi : Int) : Wp Halts (subString s lo hi) (fun _ => True) := by
  unfold subString
  exact Wp.seq (slice_h _ _ _ _) fun _ _ => trivial

theorem currentWordTop_h (E : Env) (s : St) : Wp Halts (currentWordTop E s) (fun _ => True) := by
  unfold currentWordTop
  exact Wp.seq (slice_h _ _ _ _) fun _ _ => trivial

theorem checkCursor_h (s : St) : Wp Halts (checkCursor s) (fun _ => True) := by
  unfold checkCursor
  split
  · split
    · trivial
    · exact PanicKind.noConfusion
  · exact PanicKind.noConfusion

theorem callPromptWriter_q {s0 : St} (h : Quiet s0 s) : Quiet s0 (callPromptWriter E s).2 := by
  unfold callPromptWriter
  cases E.prompt with
  | none => exact h.emit
  | some p => exact Quiet.emit (h.of) rfl

theorem repaintAll_q {s0 : St} (h : Quiet s0 s) : Wp Halts (repaintAll E s) (Quiet s0) := by
  unfold repaintAll
  dsimp only
  refine repaint_q ?_
  exact (callPromptWriter_q (h.emit (t := .flush))).of

theorem repaintLastLine_q {s0 : St} (h : Quiet s0 s) : Wp Halts (repaintLastLine E s) (Quiet s0) := by
  unfold repaintLastLine
  dsimp only
  cases E.prompt with
  | none => exact repaint_q ((h.emit).emit)
  | some p => exact repaint_q (Quiet.emit ((h.emit (t := .flush)).of))

/-! ## Commands -/

theorem Wp.cont {s0 : St} {x : M St} (h : Wp Halts x (Quiet s0)) :
    Wp Halts (x >>= fun s => Pure.pure (s, Result.cont)) (fun p => Quiet s0 p.1) :=
  Wp.seq h fun _ h1 => h1

theorem cmdEndOfLine_q {s0 : St} (h : Quiet s0 s) :
    Wp Halts (cmdEndOfLine E s) (fun p => Quiet s0 p.1) := by
  unfold cmdEndOfLine
  refine Wp.seq (widthBetween_h _ _ _ _) fun _ _ => ?_
  split
  · refine Wp.seq (puts_q h _ _) fun s1 h1 => ?_
    exact Quiet.emit (h1.of)
  · refine Wp.seq (index_h _ _ _) fun _ _ => ?_
    refine Wp.seq (puts_q (Quiet.of (h.emit (t := .gotoCol (s.topColumn + 1)))) _ _)
      fun s1 h1 => ?_
    exact Quiet.emit (h1.of)

theorem cmdForwardChar_q {s0 : St} (h : Quiet s0 s) :
    Wp Halts (cmdForwardChar E s) (fun p => Quiet s0 p.1) := by
  unfold cmdForwardChar
  split
  · split
    · exact Wp.cont (replaceAndRepaint_q h _ _)
    · exact h
  · refine Wp.seq (widthBetween_h _ _ _ _) fun _ _ => ?_
    split
    · refine Wp.seq (puts_q h _ _) fun s1 h1 => ?_
      exact h1.of
    · refine Wp.seq (index_h _ _ _) fun _ _ => ?_
      refine Wp.seq (index_h _ _ _) fun _ _ => ?_
      refine Wp.seq (puts_q (Quiet.of (h.emit (t := .gotoCol (s.topColumn + 1)))) _ _)
        fun s1 h1 => ?_
      exact (Quiet.emit (t := .eraseEol) h1 rfl).of

theorem cmdBackwardDeleteChar_q {s0 : St} (h : Quiet s0 s) :
    Wp Halts (cmdBackwardDeleteChar E s) (fun p => Quiet s0 p.1) := by
  unfold cmdBackwardDeleteChar
  split
  · refine Wp.seq (deleteCells_q (s0 := s0) (h.of) _ _) fun p h1 => ?_
    obtain ⟨s1, n⟩ := p
    dsimp only
    refine Wp.cont (repaint_q ?_)
    split
    · exact h1.of
    · exact h1
  · exact h

theorem cmdDeleteChar_q {s0 : St} (h : Quiet s0 s) :
    Wp Halts (cmdDeleteChar E s) (fun p => Quiet s0 p.1) := by
  unfold cmdDeleteChar
  refine Wp.seq (deleteCells_q h _ _) fun p h1 => ?_
  exact Wp.cont (repaint_q h1)

theorem selfInsertTail_q {s0 : St} (h : Quiet s0 s) (k : Bytes) :
    Wp Halts (selfInsertTail E s k) (fun p => Quiet s0 p.1) := by
  unfold selfInsertTail
  refine Wp.seq (insertString_q h _ _) fun p h1 => ?_
  obtain ⟨s1, n⟩ := p
  dsimp only
  refine Wp.seq (widthBetween_h _ _ _ _) fun _ _ => ?_
  refine Wp.cont (repaint_q ?_)
  split
  · exact h1.of
  · exact h1.of

theorem cmdSelfInsert_q {s0 : St} (h : Quiet s0 s) (k : Bytes) :
    Wp Halts (cmdSelfInsert E k s) (fun p => Quiet s0 p.1) := by
  unfold cmdSelfInsert
  dsimp only
  split
  · refine Wp.seq (index_h _ _ _) fun c _ => ?_
    exact cmdBackwardDeleteChar_q (h.of)
  · split
    · refine Wp.seq (index_h _ _ _) fun c _ => ?_
      refine Wp.seq (cmdBackwardDeleteChar_q h) fun p h1 => ?_
      exact selfInsertTail_q h1 _
    · split
      · exact selfInsertTail_q (h.of) _
      · exact selfInsertTail_q h _

theorem cmdKillWholeLine_q {s0 : St} (h : Quiet s0 s) :
    Wp Halts (cmdKillWholeLine s) (fun p => Quiet s0 p.1) := by
  unfold cmdKillWholeLine
  dsimp only
  refine Wp.pure ?_
  exact ((h.emit (t := .gotoCol (s.topColumn + 1))).emit (t := .eraseEol)).of

theorem getHistory_h (E : Env) (s : St) : Wp Halts (getHistory E s) (fun _ => True) := by
  unfold getHistory
  split
  · trivial
  · split
    · trivial
    · exact index_h _ _ _

theorem showHistory_q {s0 : St} (h : Quiet s0 s) :
    Wp Halts (showHistory E s) (fun p => Quiet s0 p.1) := by
  unfold showHistory
  refine Wp.seq (cmdKillWholeLine_q h) fun p h1 => ?_
  obtain ⟨s1, n⟩ := p
  dsimp only
  refine Wp.seq (getHistory_h _ _) fun t _ => ?_
  split
  · refine Wp.seq (insertString_q h1 _ _) fun p h2 => ?_
    obtain ⟨s2, n⟩ := p
    dsimp only
    refine Wp.seq (cmdEndOfLine_q (s0 := s0) (h2.of)) fun p h3 => ?_
    exact h3
  · exact h1

theorem saveModifiedHistory_q {s0 : St} (h : Quiet s0 s) :
    Wp Halts (saveModifiedHistory E s) (Quiet s0) := by
  unfold saveModifiedHistory
  dsimp only
  have last : ∀ b : Bool, Wp Halts (if b = true then pure s else
      pure { s with modHist := fun i => if i = s.histPtr then some s.text else s.modHist i } : M St)
      (Quiet s0) := by
    intro b
    cases b
    · exact h.of
    · exact h
  split
  · exact Wp.seq (P := fun _ => True) (Wp.seq (index_h _ _ _) fun _ _ => trivial) fun b _ => last b
  · exact last false

/-- The commands that read no keys write quietly and end. -/
theorem call_quiet {c : Cmd} (hb : c.builtin = true) (hq : c ≠ .quotedInsert)
    (hs : c ≠ .isearchBackward) (s : St) : Wp Halts (Cmd.call E c s) (fun p => Quiet s p.1) := by
  have h := Quiet.refl s
  cases c with
  | quotedInsert => exact absurd rfl hq
  | isearchBackward => exact absurd rfl hs
  | custom f => cases hb
  | completion P =>
    exact cmdComplete_wp (by intro e; cases e) h h.emit (fun t => repaintAll_q h.emit.emit.emit)
      (fun pos t _ _ => replaceAndRepaint_q h pos t)
  | acceptLine => exact h
  | interrupt => exact h.of
  | beginningOfLine => exact Wp.cont (repaint_q (h.of))
  | backwardChar =>
    simp only [Cmd.call, cmdBackwardChar]
    split
    · exact h
    · exact Wp.cont (repaint_q (h.of))
  | endOfLine => exact cmdEndOfLine_q h
  | forwardChar => exact cmdForwardChar_q h
  | backwardDeleteChar => exact cmdBackwardDeleteChar_q h
  | deleteChar => exact cmdDeleteChar_q h
  | deleteOrAbort =>
    simp only [Cmd.call, cmdDeleteOrAbort]
    split
    · exact cmdDeleteChar_q h
    · exact h
  | killLine =>
    simp only [Cmd.call, cmdKillLine]
    refine Wp.seq (subString_h _ _ _) fun _ _ => ?_
    refine Wp.seq (slice_h _ _ _ _) fun _ _ => ?_
    refine Wp.seq (slice_h _ _ _ _) fun _ _ => ?_
    exact (h.emit (t := .eraseEol)).of
  | killWholeLine => exact cmdKillWholeLine_q h
  | unixWordRubout =>
    simp only [Cmd.call, cmdUnixWordRubout]
    refine Wp.seq (checkCursor_h _) fun _ _ => ?_
    refine Wp.seq (currentWordTop_h _ _) fun _ _ => ?_
    refine Wp.seq (subString_h _ _ _) fun _ _ => ?_
    refine Wp.seq (deleteCells_q (s0 := s) (h.of) _ _) fun p h1 => ?_
    refine Wp.cont (repaint_q ?_)
    split
    · exact h1.of
    · exact h1.of
  | unixLineDiscard =>
    simp only [Cmd.call, cmdUnixLineDiscard]
    refine Wp.seq (subString_h _ _ _) fun _ _ => ?_
    refine Wp.seq (deleteCells_q (s0 := s) (h.of) _ _) fun p h1 => ?_
    exact Wp.cont (repaint_q (h1.of))
  | clearScreen => exact Wp.cont (repaintAll_q (h.emit))
  | repaintOnNewline => exact Wp.cont (repaintAll_q (h.emit))
  | yank =>
    simp only [Cmd.call, cmdYank]
    cases s.clip with
    | none => exact h
    | some t => exact Wp.cont (replaceAndRepaint_q h _ _)
  | yankWithQuote =>
    simp only [Cmd.call, cmdYankWithQuote]
    cases s.clip with
    | none => exact h
    | some t => exact Wp.cont (replaceAndRepaint_q h _ _)
  | swapChar =>
    simp only [Cmd.call, cmdSwapChar]
    split
    · split
      · exact h
      · refine Wp.seq (slice_h _ _ _ _) fun _ _ => ?_
        exact Wp.cont (puts_q (Quiet.emit (h.of)) _ _)
    · split
      · exact h
      · refine Wp.seq (slice_h _ _ _ _) fun _ _ => ?_
        refine Wp.seq (widthBetween_h _ _ _ _) fun _ _ => ?_
        refine Wp.cont (puts_q ?_ _ _)
        split
        · exact (h.emit (t := .gotoCol (s.topColumn + 1))).of
        · exact (h.emit (t := .gotoCol (s.topColumn + 1))).of
  | backwardWord =>
    simp only [Cmd.call, cmdBackwardWord]
    refine Wp.seq (checkCursor_h _) fun _ _ => ?_
    refine Wp.cont (repaint_q ?_)
    split
    · exact h.of
    · exact h.of
  | forwardWord =>
    simp only [Cmd.call, cmdForwardWord]
    refine Wp.seq (checkCursor_h _) fun _ _ => ?_
    refine Wp.seq (widthBetween_h _ _ _ _) fun _ _ => ?_
    split
    · refine Wp.seq (puts_q h _ _) fun s1 h1 => ?_
      exact h1.of
    · exact Wp.cont (repaint_q (h.of))
  | undo =>
    simp only [Cmd.call, cmdUndo]
    cases s.undoes with
    | nil => exact h.emit
    | cons u rest =>
      dsimp only
      have hg : ∀ r b, Quiet s { gotoHead { s with undoes := r } with buf := b } := fun r b =>
        (h.emit (t := .gotoCol (s.topColumn + 1))).of
      have last : ∀ b1 : List Cell, Wp Halts (do
          let s2 ← (if u.text ≠ [] then do
              let cells := mojis2cells (stringToMoji E.cfg u.text)
              let b2 ← bufInsert { gotoHead { s with undoes := rest } with buf := b1 } u.pos cells
              pure { gotoHead { s with undoes := rest } with buf := b2, cursor := u.pos + cells.length }
            else pure { gotoHead { s with undoes := rest } with buf := b1, cursor := u.pos } : M St)
          let s2 ← repaint E (resetViewStart E s2)
          pure (s2, Result.cont)) (fun p => Quiet s p.1) := by
        intro b1
        have fin : ∀ s2, Quiet s s2 → Wp Halts (do
            let s2 ← repaint E (resetViewStart E s2)
            pure (s2, Result.cont)) (fun p => Quiet s p.1) :=
          fun s2 h2 => Wp.cont (repaint_q (h2.of))
        split
        · refine Wp.seq (P := Quiet s) ?_ fin
          refine Wp.seq (bufInsert_h _ _ _) fun b2 _ => ?_
          exact (hg rest b2).of
        · exact Wp.seq (P := Quiet s) ((hg rest b1).of) fin
      split
      · exact Wp.seq (bufDelete_h _ _ _) fun b1 _ => last b1
      · exact last _
  | previousHistory =>
    simp only [Cmd.call, cmdPreviousHistory]
    split
    · exact h
    · split
      · exact h
      · refine Wp.seq (saveModifiedHistory_q (s0 := s) ?_) fun s1 h1 => showHistory_q (h1.of)
        split
        · exact h.of
        · exact h
  | nextHistory =>
    simp only [Cmd.call, cmdNextHistory]
    split
    · exact h
    · split
      · exact h
      · exact Wp.seq (saveModifiedHistory_q h) fun s1 h1 => showHistory_q (h1.of)
  | selfInsert k => exact cmdSelfInsert_q h k

end
end Readline
