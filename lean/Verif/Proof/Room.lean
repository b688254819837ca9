import Verif.Proof.InkCall
import Verif.Spec.Plain
/-!
# The place of the line on the screen

The width of the screen changes only when the terminal reports a new one, and the line begins
behind the prompt.  The structure of the proofs is that of `Proof/InkCall.lean`.
-/
namespace Readline
open Spec

/-- From `s` to `s'` the screen keeps its width, and the line its first column unless the prompt
was written again. -/
def Roomy (E : Env) (s s' : St) : Prop :=
  s'.termWidth = s.termWidth ∧ (s'.topColumn = s.topColumn ∨ ∃ n, s'.topColumn = promptWidth E n)

namespace Roomy
variable {E : Env} {s s1 s2 : St}

theorem refl (s : St) : Roomy E s s := ⟨rfl, Or.inl rfl⟩

theorem trans (h1 : Roomy E s s1) (h2 : Roomy E s1 s2) : Roomy E s s2 := by
  refine ⟨h2.1.trans h1.1, ?_⟩
  rcases h2.2 with h | h
  · rw [h]; exact h1.2
  · exact Or.inr h

theorem emit (h : Roomy E s s1) {t : Tok} (_ : t.plain = true := by rfl) : Roomy E s (s1.emit t) := h

theorem of (h : Roomy E s s1) (ho : s2.termWidth = s1.termWidth ∧ s2.topColumn = s1.topColumn := by exact ⟨rfl, rfl⟩) :
    Roomy E s s2 := h.trans ⟨ho.1, Or.inl ho.2⟩

end Roomy

theorem Wp.contRoom {E : Env} {s0 : St} {x : M St} (h : Wp Any x (Roomy E s0)) :
    Wp Any (x >>= fun s => Pure.pure (s, Result.cont)) (fun p => Roomy E s0 p.1) :=
  Wp.seq h fun _ h1 => h1

section
variable {E : Env} {s : St}

theorem puts_r {s0 : St} (h : Roomy E s0 s) (lo hi : Int) : Wp Any (puts E s lo hi) (Roomy E s0) := by
  refine Wp.of_ok fun s' hs' => h.trans ?_
  obtain ⟨⟨o, e⟩, _⟩ := puts_draws (lit := fun _ r => r) hs'
  rw [e]
  exact (Roomy.refl s).of

theorem drawLoop_r {s0 : St} {C : Cfg} {vw : Int} (ms : List Moji) (w : Int) (h : Roomy E s0 s) :
    Wp Any (drawLoop C vw ms w s) (Roomy E s0) := by
  refine Wp.of_ok fun s' hs' => h.trans ?_
  obtain ⟨l, e⟩ := drawLoop_glyphs ms w hs'
  rw [e]
  exact (Roomy.refl s).of

theorem repaintNoSuffix_r {s0 : St} (h : Roomy E s0 s) : Wp Any (repaintNoSuffix E s) (Roomy E s0) := by
  unfold repaintNoSuffix
  refine Wp.seq Wp.any fun p _ => ?_
  obtain ⟨n, w⟩ := p
  dsimp only
  refine Wp.seq (puts_r (h.emit) _ _) fun s1 h1 => ?_
  have last : ∀ s2, Roomy E s0 s2 →
      Wp Any (puts E (gotoHead (eraseline s2)) (gotoHead (eraseline s2)).viewStart
        (gotoHead (eraseline s2)).cursor) (Roomy E s0) :=
    fun s2 h2 => puts_r ((h2.emit).emit) _ _
  split
  · rename_i hp
    refine Wp.seq (P := Roomy E s0) ?_ last
    refine Wp.of_ok fun s2 h2 => h1.trans ?_
    obtain ⟨s3, h3, h4⟩ := bind_ok.mp h2
    obtain ⟨l, e⟩ := suffixLoop_glyphs _ _ h3
    cases pure_ok.mp h4
    rw [e]
    exact (Roomy.refl s1).of
  · exact Wp.seq (P := Roomy E s0) h1 last

theorem updateSuffix_r {s0 : St} (h : Roomy E s0 s) : Roomy E s0 (updateSuffix E s) := by
  unfold updateSuffix
  split
  · exact h
  · split <;> exact h.of

theorem repaint_r {s0 : St} (h : Roomy E s0 s) : Wp Any (repaint E s) (Roomy E s0) :=
  repaintNoSuffix_r (updateSuffix_r h)

theorem insertString_r {s0 : St} (h : Roomy E s0 s) (pos : Int) (t : Bytes) :
    Wp Any (insertString E s pos t) (fun p => Roomy E s0 p.1) := by
  unfold insertString insertCells bufInsert
  dsimp only
  split
  · exact h.of
  · exact trivial

theorem deleteCells_r {s0 : St} (h : Roomy E s0 s) (pos n : Int) :
    Wp Any (deleteCells E s pos n) (fun p => Roomy E s0 p.1) := by
  unfold deleteCells
  split
  · exact h
  · refine Wp.seq Wp.any fun _ _ => ?_
    dsimp only
    exact Wp.seq Wp.any fun _ _ => h.of

theorem joinUndo_r {s0 : St} (h : Roomy E s0 s) : Roomy E s0 (joinUndo s) := by
  unfold joinUndo
  split
  · split
    · exact h
    · split
      · exact h
      · split
        · exact h
        · exact h.of
  · exact h

theorem replaceAndRepaint_r {s0 : St} (h : Roomy E s0 s) (pos : Int) (t : Bytes) :
    Wp Any (replaceAndRepaint E s pos t) (Roomy E s0) := by
  unfold replaceAndRepaint
  refine Wp.seq (deleteCells_r h _ _) fun p h1 => ?_
  obtain ⟨s1, n⟩ := p
  dsimp only
  refine Wp.seq (insertString_r h1 _ _) fun p h2 => ?_
  obtain ⟨s2, ins⟩ := p
  dsimp only
  refine repaint_r ?_
  have : Roomy E s0 (joinUndo { s2 with cursor := pos + ins.length }) := joinUndo_r (h2.of)
  exact this.of

theorem callPromptWriter_r {s0 : St} (h : Roomy E s0 s) : Roomy E s0 (callPromptWriter E s).2 := by
  unfold callPromptWriter
  cases E.prompt with
  | none => exact h.emit
  | some p => exact Roomy.emit (h.of) rfl

theorem callPromptWriter_cols (s : St) : (callPromptWriter E s).1 = promptWidth E s.promptN := by
  unfold callPromptWriter promptWidth
  cases E.prompt <;> rfl

theorem repaintAll_r {s0 : St} (h : Roomy E s0 s) : Wp Any (repaintAll E s) (Roomy E s0) := by
  unfold repaintAll
  dsimp only
  refine repaint_r ?_
  have hp := callPromptWriter_r (h.emit (t := .flush))
  exact ⟨hp.1, Or.inr ⟨_, callPromptWriter_cols _⟩⟩

theorem repaintLastLine_r {s0 : St} (h : Roomy E s0 s) : Wp Any (repaintLastLine E s) (Roomy E s0) := by
  unfold repaintLastLine
  dsimp only
  cases E.prompt with
  | none => exact repaint_r ((h.emit).emit)
  | some p => exact repaint_r (Roomy.emit ((h.emit (t := .flush)).of))

/-! ## Commands -/

theorem cmdEndOfLine_r {s0 : St} (h : Roomy E s0 s) :
    Wp Any (cmdEndOfLine E s) (fun p => Roomy E s0 p.1) := by
  unfold cmdEndOfLine
  refine Wp.seq Wp.any fun _ _ => ?_
  split
  · refine Wp.seq (puts_r h _ _) fun s1 h1 => ?_
    exact Roomy.emit (h1.of)
  · refine Wp.seq Wp.any fun _ _ => ?_
    refine Wp.seq (puts_r (Roomy.of (h.emit (t := .gotoCol (s.topColumn + 1)))) _ _)
      fun s1 h1 => ?_
    exact Roomy.emit (h1.of)

theorem cmdForwardChar_r {s0 : St} (h : Roomy E s0 s) :
    Wp Any (cmdForwardChar E s) (fun p => Roomy E s0 p.1) := by
  unfold cmdForwardChar
  split
  · split
    · exact Wp.contRoom (replaceAndRepaint_r h _ _)
    · exact h
  · refine Wp.seq Wp.any fun _ _ => ?_
    split
    · refine Wp.seq (puts_r h _ _) fun s1 h1 => ?_
      exact h1.of
    · refine Wp.seq Wp.any fun _ _ => ?_
      refine Wp.seq Wp.any fun _ _ => ?_
      refine Wp.seq (puts_r (Roomy.of (h.emit (t := .gotoCol (s.topColumn + 1)))) _ _)
        fun s1 h1 => ?_
      exact (Roomy.emit (t := .eraseEol) h1 rfl).of

theorem cmdBackwardDeleteChar_r {s0 : St} (h : Roomy E s0 s) :
    Wp Any (cmdBackwardDeleteChar E s) (fun p => Roomy E s0 p.1) := by
  unfold cmdBackwardDeleteChar
  split
  · refine Wp.seq (deleteCells_r (s0 := s0) (h.of) _ _) fun p h1 => ?_
    obtain ⟨s1, n⟩ := p
    dsimp only
    refine Wp.contRoom (repaint_r ?_)
    split
    · exact h1.of
    · exact h1
  · exact h

theorem cmdDeleteChar_r {s0 : St} (h : Roomy E s0 s) :
    Wp Any (cmdDeleteChar E s) (fun p => Roomy E s0 p.1) := by
  unfold cmdDeleteChar
  refine Wp.seq (deleteCells_r h _ _) fun p h1 => ?_
  exact Wp.contRoom (repaint_r h1)

theorem selfInsertTail_r {s0 : St} (h : Roomy E s0 s) (k : Bytes) :
    Wp Any (selfInsertTail E s k) (fun p => Roomy E s0 p.1) := by
  unfold selfInsertTail
  refine Wp.seq (insertString_r h _ _) fun p h1 => ?_
  obtain ⟨s1, n⟩ := p
  dsimp only
  refine Wp.seq Wp.any fun _ _ => ?_
  refine Wp.contRoom (repaint_r ?_)
  split
  · exact h1.of
  · exact h1.of

theorem cmdSelfInsert_r {s0 : St} (h : Roomy E s0 s) (k : Bytes) :
    Wp Any (cmdSelfInsert E k s) (fun p => Roomy E s0 p.1) := by
  unfold cmdSelfInsert
  dsimp only
  split
  · refine Wp.seq Wp.any fun c _ => ?_
    exact cmdBackwardDeleteChar_r (h.of)
  · split
    · refine Wp.seq Wp.any fun c _ => ?_
      refine Wp.seq (cmdBackwardDeleteChar_r h) fun p h1 => ?_
      exact selfInsertTail_r h1 _
    · split
      · exact selfInsertTail_r (h.of) _
      · exact selfInsertTail_r h _

theorem cmdKillWholeLine_r {s0 : St} (h : Roomy E s0 s) :
    Wp Any (cmdKillWholeLine s) (fun p => Roomy E s0 p.1) := by
  unfold cmdKillWholeLine
  dsimp only
  refine Wp.pure ?_
  exact ((h.emit (t := .gotoCol (s.topColumn + 1))).emit (t := .eraseEol)).of

theorem showHistory_r {s0 : St} (h : Roomy E s0 s) :
    Wp Any (showHistory E s) (fun p => Roomy E s0 p.1) := by
  unfold showHistory
  refine Wp.seq (cmdKillWholeLine_r h) fun p h1 => ?_
  obtain ⟨s1, n⟩ := p
  dsimp only
  refine Wp.seq Wp.any fun t _ => ?_
  split
  · refine Wp.seq (insertString_r h1 _ _) fun p h2 => ?_
    obtain ⟨s2, n⟩ := p
    dsimp only
    refine Wp.seq (cmdEndOfLine_r (s0 := s0) (h2.of)) fun p h3 => ?_
    exact h3
  · exact h1

theorem saveModifiedHistory_r {s0 : St} (h : Roomy E s0 s) :
    Wp Any (saveModifiedHistory E s) (Roomy E s0) := by
  unfold saveModifiedHistory
  dsimp only
  have last : ∀ b : Bool, Wp Any (if b = true then pure s else
      pure { s with modHist := fun i => if i = s.histPtr then some s.text else s.modHist i } : M St)
      (Roomy E s0) := by
    intro b
    cases b
    · exact h.of
    · exact h
  split
  · exact Wp.seq (P := fun _ => True) (Wp.seq Wp.any fun _ _ => trivial) fun b _ => last b
  · exact last false


theorem call_roomy {c : Cmd} (hb : c.builtin = true) (hq : c ≠ .quotedInsert)
    (hs : c ≠ .isearchBackward) (s : St) : Wp Any (Cmd.call E c s) (fun p => Roomy E s p.1) := by
  have h := Roomy.refl (E := E) s
  cases c with
  | quotedInsert => exact absurd rfl hq
  | isearchBackward => exact absurd rfl hs
  | custom f => cases hb
  | completion P =>
    exact cmdComplete_wp trivial h h.emit (fun _ => repaintAll_r h.emit.emit.emit)
      (fun _ _ _ _ => replaceAndRepaint_r h _ _)
  | acceptLine => exact h
  | interrupt => exact h.of
  | beginningOfLine => exact Wp.contRoom (repaint_r (h.of))
  | backwardChar =>
    simp only [Cmd.call, cmdBackwardChar]
    split
    · exact h
    · exact Wp.contRoom (repaint_r (h.of))
  | endOfLine => exact cmdEndOfLine_r h
  | forwardChar => exact cmdForwardChar_r h
  | backwardDeleteChar => exact cmdBackwardDeleteChar_r h
  | deleteChar => exact cmdDeleteChar_r h
  | deleteOrAbort =>
    simp only [Cmd.call, cmdDeleteOrAbort]
    split
    · exact cmdDeleteChar_r h
    · exact h
  | killLine =>
    simp only [Cmd.call, cmdKillLine]
    refine Wp.seq Wp.any fun _ _ => ?_
    refine Wp.seq Wp.any fun _ _ => ?_
    refine Wp.seq Wp.any fun _ _ => ?_
    exact (h.emit (t := .eraseEol)).of
  | killWholeLine => exact cmdKillWholeLine_r h
  | unixWordRubout =>
    simp only [Cmd.call, cmdUnixWordRubout]
    refine Wp.seq Wp.any fun _ _ => ?_
    refine Wp.seq Wp.any fun _ _ => ?_
    refine Wp.seq Wp.any fun _ _ => ?_
    refine Wp.seq (deleteCells_r (s0 := s) (h.of) _ _) fun p h1 => ?_
    refine Wp.contRoom (repaint_r ?_)
    split
    · exact h1.of
    · exact h1.of
  | unixLineDiscard =>
    simp only [Cmd.call, cmdUnixLineDiscard]
    refine Wp.seq Wp.any fun _ _ => ?_
    refine Wp.seq (deleteCells_r (s0 := s) (h.of) _ _) fun p h1 => ?_
    exact Wp.contRoom (repaint_r (h1.of))
  | clearScreen => exact Wp.contRoom (repaintAll_r (h.emit))
  | repaintOnNewline => exact Wp.contRoom (repaintAll_r (h.emit))
  | yank =>
    simp only [Cmd.call, cmdYank]
    cases s.clip with
    | none => exact h
    | some t => exact Wp.contRoom (replaceAndRepaint_r h _ _)
  | yankWithQuote =>
    simp only [Cmd.call, cmdYankWithQuote]
    cases s.clip with
    | none => exact h
    | some t => exact Wp.contRoom (replaceAndRepaint_r h _ _)
  | swapChar =>
    simp only [Cmd.call, cmdSwapChar]
    split
    · split
      · exact h
      · refine Wp.seq Wp.any fun _ _ => ?_
        exact Wp.contRoom (puts_r (Roomy.emit (h.of)) _ _)
    · split
      · exact h
      · refine Wp.seq Wp.any fun _ _ => ?_
        refine Wp.seq Wp.any fun _ _ => ?_
        refine Wp.contRoom (puts_r ?_ _ _)
        split
        · exact (h.emit (t := .gotoCol (s.topColumn + 1))).of
        · exact (h.emit (t := .gotoCol (s.topColumn + 1))).of
  | backwardWord =>
    simp only [Cmd.call, cmdBackwardWord]
    refine Wp.seq Wp.any fun _ _ => ?_
    refine Wp.contRoom (repaint_r ?_)
    split
    · exact h.of
    · exact h.of
  | forwardWord =>
    simp only [Cmd.call, cmdForwardWord]
    refine Wp.seq Wp.any fun _ _ => ?_
    refine Wp.seq Wp.any fun _ _ => ?_
    split
    · refine Wp.seq (puts_r h _ _) fun s1 h1 => ?_
      exact h1.of
    · exact Wp.contRoom (repaint_r (h.of))
  | undo =>
    simp only [Cmd.call, cmdUndo]
    cases s.undoes with
    | nil => exact h.emit
    | cons u rest =>
      dsimp only
      have hg : ∀ r b, Roomy E s { gotoHead { s with undoes := r } with buf := b } := fun r b =>
        (h.emit (t := .gotoCol (s.topColumn + 1))).of
      have last : ∀ b1 : List Cell, Wp Any (do
          let s2 ← (if u.text ≠ [] then do
              let cells := mojis2cells (stringToMoji E.cfg u.text)
              let b2 ← bufInsert { gotoHead { s with undoes := rest } with buf := b1 } u.pos cells
              pure { gotoHead { s with undoes := rest } with buf := b2, cursor := u.pos + cells.length }
            else pure { gotoHead { s with undoes := rest } with buf := b1, cursor := u.pos } : M St)
          let s2 ← repaint E (resetViewStart E s2)
          pure (s2, Result.cont)) (fun p => Roomy E s p.1) := by
        intro b1
        have fin : ∀ s2, Roomy E s s2 → Wp Any (do
            let s2 ← repaint E (resetViewStart E s2)
            pure (s2, Result.cont)) (fun p => Roomy E s p.1) :=
          fun s2 h2 => Wp.contRoom (repaint_r (h2.of))
        split
        · refine Wp.seq (P := Roomy E s) ?_ fin
          refine Wp.seq Wp.any fun b2 _ => ?_
          exact (hg rest b2).of
        · exact Wp.seq (P := Roomy E s) ((hg rest b1).of) fin
      split
      · exact Wp.seq Wp.any fun b1 _ => last b1
      · exact last _
  | previousHistory =>
    simp only [Cmd.call, cmdPreviousHistory]
    split
    · exact h
    · split
      · exact h
      · refine Wp.seq (saveModifiedHistory_r (s0 := s) ?_) fun s1 h1 => showHistory_r (h1.of)
        split
        · exact h.of
        · exact h
  | nextHistory =>
    simp only [Cmd.call, cmdNextHistory]
    split
    · exact h
    · split
      · exact h
      · exact Wp.seq (saveModifiedHistory_r h) fun s1 h1 => showHistory_r (h1.of)
  | selfInsert k => exact cmdSelfInsert_r h k


theorem getKey_r {s0 : St} {k : Option Bytes} {s' : St} (h : Roomy E s0 s) (hg : getKey s = (k, s')) :
    Roomy E s0 s' := by
  obtain ⟨rest, e⟩ := getKey_state hg
  rw [e]
  exact (h.emit (t := .await)).of

theorem cmdQuotedInsert_r (s : St) : Wp Any (cmdQuotedInsert E s) (fun p => Roomy E s p.1) := by
  unfold cmdQuotedInsert
  dsimp only
  have h0 : Roomy E s (s.emit .cursorOn) := (Roomy.refl s).emit
  generalize hg : getKey (s.emit .cursorOn) = g
  obtain ⟨k, s1⟩ := g
  have h := getKey_r h0 hg
  cases k with
  | none => exact h.emit
  | some k =>
    dsimp only
    refine Wp.seq (cmdSelfInsert_r h k) fun p h1 => ?_
    exact Wp.pure (h1.emit)

theorem isearchLoop_r {s0 : St} (n : Nat) (it : ISt) (s : St) (h0 : Roomy E s0 s) :
    Wp Any (isearchLoop E n it s) (fun p => Roomy E s0 p.1) := by
  induction n generalizing it s with
  | zero => trivial
  | succ n ih =>
    unfold isearchLoop
    refine Wp.seq (drawLoop_r _ _ h0) fun s1 h1 => ?_
    dsimp only
    have h2 : Roomy E s0 ((eraseline s1).emit .cursorOn) := (h1.emit (t := .eraseEol)).emit
    generalize hg : getKey ((eraseline s1).emit .cursorOn) = g
    obtain ⟨ok, s2⟩ := g
    have h2 := getKey_r h2 hg
    cases ok with
    | none => exact h2
    | some key =>
      dsimp only
      have h3 : Roomy E s0 (gotoHead (s2.emit .cursorOff)) :=
        (h2.emit (t := .cursorOff)).emit (t := .gotoCol ((s2.emit .cursorOff).topColumn + 1))
      generalize gotoHead (s2.emit .cursorOff) = s3 at *
      split
      · exact ih _ _ h3
      · split
        · exact Wp.contRoom (replaceAndRepaint_r (h3.of) _ _)
        · split
          · refine Wp.seq Wp.any fun p _ => ?_
            refine Wp.seq (puts_r h3 _ _) fun s4 h4 => ?_
            refine Wp.contRoom (puts_r ?_ _ _)
            exact (h4.emit (t := .eraseEol)).emit (t := .gotoCol ((s4.emit .eraseEol).topColumn + 1))
          · split
            · exact Wp.seq Wp.any fun it' _ => ih _ _ h3
            · split
              · exact Wp.seq Wp.any fun it' _ => ih _ _ h3
              · split
                · exact ih _ _ h3
                · exact ih _ _ h3

/-- Every built-in command. -/
theorem call_r {c : Cmd} (hb : c.builtin = true) (s : St) :
    Wp Any (Cmd.call E c s) (fun p => Roomy E s p.1) := by
  by_cases hq : c = .quotedInsert
  · subst hq; exact cmdQuotedInsert_r s
  · by_cases hs : c = .isearchBackward
    · subst hs
      exact isearchLoop_r _ _ _ ((Roomy.refl s).emit (t := .gotoCol (s.topColumn + 1)))
    · exact call_roomy hb hq hs s

theorem finish_r {s0 : St} (h : Roomy E s0 s) (rc : Result) :
    Wp Any (finish E s rc) (fun p => Roomy E s0 p.1) := by
  unfold finish
  have last : ∀ s1, Roomy E s0 s1 → Wp Any (do
      let s1 := match E.lineFeed with
        | some f => s1.emit (.lit (f rc))
        | none => s1.emit (.lit [0x0A])
      let s1 := s1.emit .flush
      let text := s1.text
      let err := match rc with
        | .enter => RLErr.nil
        | .intr => .ctrlC
        | _ => .eof
      return (deferred s1, ({ text := text, err := err } : RLRes)) : M (St × RLRes))
      (fun p => Roomy E s0 p.1) := by
    intro s1 h1
    refine Wp.pure ?_
    refine Roomy.emit (t := .flush) (Roomy.emit (t := .cursorOn) (Roomy.emit (t := .flush) ?_))
    cases E.lineFeed with
    | none => exact h1.emit
    | some f => exact h1.emit
  cases s.suffix with
  | none => exact last s h
  | some x => exact Wp.seq (repaintNoSuffix_r (h.of)) last


/-- One key. -/
theorem step_r (hb : ∀ k, (lookupCommand E k).builtin = true) {s s' : St} {r : Option RLRes}
    (h : step E s = .ok (s', r)) : s'.topColumn = s.topColumn ∨ ∃ n, s'.topColumn = promptWidth E n := by
  have hr := Roomy.refl (E := E) s
  have key : Wp Any (step E s) (fun p => p.1.topColumn = s.topColumn ∨ ∃ n, p.1.topColumn = promptWidth E n) := by
    unfold step
    cases hi : s.input with
    | nil => exact Or.inl rfl
    | cons ev rest =>
      cases ev with
      | err x => exact Or.inl rfl
      | resize w =>
        dsimp only
        refine Wp.seq (P := Roomy E { s with termWidth := w }) ?_ fun s1 h1 => h1.2
        unfold onResize
        exact repaintLastLine_r ((Roomy.refl (E := E) { s with termWidth := w }).of)
      | key k =>
        dsimp only
        unfold execCmd
        have h0 : Roomy E s (({ s.emit .await with input := rest }).emit .cursorOff) := hr.of
        refine Wp.seq (call_r (hb k) _) fun p h1 => ?_
        obtain ⟨s1, rc⟩ := p
        have h2 : Roomy E s (s1.emit .cursorOn) := (h0.trans h1).emit
        have fin : Wp Any (do
            let p ← finish E (s1.emit .cursorOn) rc
            return (p.1, some p.2)) (fun p => p.1.topColumn = s.topColumn ∨ ∃ n, p.1.topColumn = promptWidth E n) :=
          Wp.seq (finish_r h2 rc) fun p h3 => h3.2
        cases rc
        · exact h2.2
        · exact fin
        · exact fin
        · exact fin
  exact key.ok h

/-- The line begins behind a prompt, at the left end if the prompt did not fit, or in the column 2
if the prompt could not be written. -/
theorem reachable_top (hb : ∀ k, (lookupCommand E k).builtin = true) {w : World} (h : Reachable E w s) :
    (E.promptErr.isSome = true ∧ s.topColumn = 2) ∨
    (E.promptErr = none ∧ w.termWidth - 3 ≤ promptWidth E w.promptN ∧ s.topColumn = 0) ∨
    ∃ n, s.topColumn = promptWidth E n := by
  induction h with
  | @start s h =>
    unfold startSt at h
    obtain ⟨⟨s1, n⟩, h1, h⟩ := bind_ok.mp h
    have h1' : Roomy E (promptSt E w) s1 := (insertString_r (Roomy.refl _) _ _).ok h1
    obtain ⟨s2, h2, h⟩ := bind_ok.mp h
    cases pure_ok.mp h
    have h3 : Roomy E (promptSt E w) (if s1.cursor > s1.len then { s1 with cursor := s1.len } else s1) := by
      split
      · exact h1'.of
      · exact h1'
    have h4 : Roomy E (promptSt E w) s2 := (repaint_r (E := E) (h3.of)).ok h2
    show _ ∨ (_ ∧ _ ∧ s2.topColumn = 0) ∨ ∃ n, s2.topColumn = promptWidth E n
    rcases h4.2 with h5 | h5
    · rw [h5]
      show (_ ∧ s2.topColumn = 2) ∨ _
      rw [h5]
      unfold promptSt
      dsimp only
      rw [callPromptWriter_cols]
      have ht : ∀ q : St, (callPromptWriter E q).2.termWidth = q.termWidth := fun q =>
        (callPromptWriter_r (Roomy.refl q)).1
      cases hp : E.promptErr with
      | some e => exact Or.inl ⟨rfl, rfl⟩
      | none =>
        dsimp only
        rw [ht]
        dsimp only
        split
        · rename_i hge
          exact Or.inr (Or.inl ⟨rfl, hge, rfl⟩)
        · exact Or.inr (Or.inr ⟨_, rfl⟩)
    · exact Or.inr (Or.inr h5)
  | step _ hs ih =>
    rcases step_r hb hs with h | h
    · rw [h]; exact ih
    · exact Or.inr (Or.inr h)

end
end Readline
