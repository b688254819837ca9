import Verif.Proof.Room
import Verif.Proof.Clean
/-!
# Where the cursor is moved to

Every move of the cursor within the row goes to the first column of the line.  The structure of the
proofs is that of `Proof/Room.lean`.
-/
namespace Readline
open Spec

/-- A move, if it is one, goes to the column `c + 1`. -/
def Tok.home (c : Int) : Tok → Prop
  | .gotoCol n => n = c + 1
  | _ => True

/-- If the prompt is always `c` columns wide and the line begins behind it, then it still does, and
every move of the cursor went there. -/
def Homing (E : Env) (s s' : St) : Prop :=
  ∀ c, (∀ n, promptWidth E n = c) → s.topColumn = c →
    s'.topColumn = c ∧ ∃ t, s'.out = s.out ++ t ∧ ∀ x ∈ t, x.home c

namespace Homing
variable {E : Env} {s s1 s2 : St}

theorem refl (s : St) : Homing E s s := fun _ _ h => ⟨h, [], by simp, by simp⟩

theorem trans (h1 : Homing E s s1) (h2 : Homing E s1 s2) : Homing E s s2 := by
  intro c hp hc
  obtain ⟨a1, t1, b1, d1⟩ := h1 c hp hc
  obtain ⟨a2, t2, b2, d2⟩ := h2 c hp a1
  refine ⟨a2, t1 ++ t2, by rw [b2, b1, List.append_assoc], fun x hx => ?_⟩
  rcases List.mem_append.mp hx with h | h
  · exact d1 x h
  · exact d2 x h

theorem emit (h : Homing E s s1) {t : Tok} (ht : t.home s1.topColumn := by first | exact rfl | trivial) :
    Homing E s (s1.emit t) :=
  h.trans fun c _ hc => ⟨hc, [t], rfl, fun x hx => by
    cases List.mem_singleton.mp hx
    rw [← hc]
    exact ht⟩

theorem of (h : Homing E s s1) (ho : s2.topColumn = s1.topColumn ∧ s2.out = s1.out := by exact ⟨rfl, rfl⟩) :
    Homing E s s2 := h.trans fun c _ hc => ⟨ho.1.trans hc, [], by rw [ho.2, List.append_nil], by simp⟩

/-- Nothing was moved. -/
theorem still (h : Homing E s s1) {t : List Tok} (ho : s2.topColumn = s1.topColumn) (ht : s2.out = s1.out ++ t)
    (hs : ∀ x ∈ t, ∀ n, x ≠ .gotoCol n) : Homing E s s2 :=
  h.trans fun c _ hc => ⟨ho.trans hc, t, ht, fun x hx => by
    have := hs x hx
    cases x with
    | gotoCol n => exact absurd rfl (this n)
    | _ => trivial⟩

end Homing

theorem Wp.contHome {E : Env} {s0 : St} {x : M St} (h : Wp Any x (Homing E s0)) :
    Wp Any (x >>= fun s => Pure.pure (s, Result.cont)) (fun p => Homing E s0 p.1) :=
  Wp.seq h fun _ h1 => h1

section
variable {E : Env} {s : St}

theorem puts_h {s0 : St} (h : Homing E s0 s) (lo hi : Int) : Wp Any (puts E s lo hi) (Homing E s0) := by
  refine Wp.of_ok fun s' hs' => ?_
  unfold puts at hs'
  obtain ⟨x, h0, hs'⟩ := bind_ok.mp hs'
  obtain ⟨s1, h1, hs'⟩ := bind_ok.mp hs'
  obtain ⟨cs, h2, hs'⟩ := bind_ok.mp hs'
  obtain ⟨⟨s2, col⟩, h3, hs'⟩ := bind_ok.mp hs'
  obtain ⟨ts, e2, hts⟩ := putsLoop_toks cs h3
  have e1 : s1 = { s with buf := refreshed E s } := refreshColor_eq h1
  have h4 : Homing E s0 s2 := by
    refine h.still (t := ts) (by rw [e2, e1]) (by rw [e2, e1]) fun x hx n e => ?_
    rcases hts x hx with ⟨d, hd⟩ | ⟨y, _, hy⟩
    · rw [hd] at e; cases e
    · rw [hy] at e; cases e
  have e3 := pure_ok.mp hs'
  rw [← e3]
  split
  · exact h4.emit
  · exact h4

theorem drawLoop_h {s0 : St} {C : Cfg} {vw : Int} (ms : List Moji) (w : Int) (h : Homing E s0 s) :
    Wp Any (drawLoop C vw ms w s) (Homing E s0) := by
  refine Wp.of_ok fun s' hs' => h.trans ?_
  obtain ⟨l, e⟩ := drawLoop_glyphs ms w hs'
  rw [e]
  exact (Homing.refl s).still rfl rfl (by simp)

theorem repaintNoSuffix_h {s0 : St} (h : Homing E s0 s) : Wp Any (repaintNoSuffix E s) (Homing E s0) := by
  unfold repaintNoSuffix
  refine Wp.seq Wp.any fun p _ => ?_
  obtain ⟨n, w⟩ := p
  dsimp only
  refine Wp.seq (puts_h (h.emit) _ _) fun s1 h1 => ?_
  have last : ∀ s2, Homing E s0 s2 →
      Wp Any (puts E (gotoHead (eraseline s2)) (gotoHead (eraseline s2)).viewStart
        (gotoHead (eraseline s2)).cursor) (Homing E s0) :=
    fun s2 h2 => puts_h ((h2.emit).emit) _ _
  split
  · rename_i hp
    refine Wp.seq (P := Homing E s0) ?_ last
    refine Wp.of_ok fun s2 h2 => h1.trans ?_
    obtain ⟨s3, h3, h4⟩ := bind_ok.mp h2
    obtain ⟨l, e⟩ := suffixLoop_glyphs _ _ h3
    cases pure_ok.mp h4
    rw [e]
    have h5 : Homing E s1 (s1.emit (.lit E.predictColor.1)) := (Homing.refl s1).emit
    have h6 : Homing E s1 { s1.emit (.lit E.predictColor.1) with out := (s1.emit (.lit E.predictColor.1)).out ++ l.map Tok.glyph } :=
      h5.still rfl rfl (by simp)
    exact h6.emit
  · exact Wp.seq (P := Homing E s0) h1 last

theorem updateSuffix_h {s0 : St} (h : Homing E s0 s) : Homing E s0 (updateSuffix E s) := by
  unfold updateSuffix
  split
  · exact h
  · split <;> exact h.of

theorem repaint_h {s0 : St} (h : Homing E s0 s) : Wp Any (repaint E s) (Homing E s0) :=
  repaintNoSuffix_h (updateSuffix_h h)

theorem insertString_h {s0 : St} (h : Homing E s0 s) (pos : Int) (t : Bytes) :
    Wp Any (insertString E s pos t) (fun p => Homing E s0 p.1) := by
  unfold insertString insertCells bufInsert
  dsimp only
  split
  · exact h.of
  · exact trivial

theorem deleteCells_h {s0 : St} (h : Homing E s0 s) (pos n : Int) :
    Wp Any (deleteCells E s pos n) (fun p => Homing E s0 p.1) := by
  unfold deleteCells
  split
  · exact h
  · refine Wp.seq Wp.any fun _ _ => ?_
    dsimp only
    exact Wp.seq Wp.any fun _ _ => h.of

theorem joinUndo_h {s0 : St} (h : Homing E s0 s) : Homing E s0 (joinUndo s) := by
  unfold joinUndo
  split
  · split
    · exact h
    · split
      · exact h
      · split
        · exact h
        · exact h.of
  · exact h

theorem replaceAndRepaint_h {s0 : St} (h : Homing E s0 s) (pos : Int) (t : Bytes) :
    Wp Any (replaceAndRepaint E s pos t) (Homing E s0) := by
  unfold replaceAndRepaint
  refine Wp.seq (deleteCells_h h _ _) fun p h1 => ?_
  obtain ⟨s1, n⟩ := p
  dsimp only
  refine Wp.seq (insertString_h h1 _ _) fun p h2 => ?_
  obtain ⟨s2, ins⟩ := p
  dsimp only
  refine repaint_h ?_
  have : Homing E s0 (joinUndo { s2 with cursor := pos + ins.length }) := joinUndo_h (h2.of)
  exact this.of

theorem callPromptWriter_h {s0 : St} (h : Homing E s0 s) : Homing E s0 (callPromptWriter E s).2 := by
  unfold callPromptWriter
  cases E.prompt with
  | none => exact h.emit
  | some p => exact Homing.emit (h.of)

theorem repaintAll_h {s0 : St} (h : Homing E s0 s) : Wp Any (repaintAll E s) (Homing E s0) := by
  unfold repaintAll
  dsimp only
  refine repaint_h ?_
  have hp := callPromptWriter_h (h.emit (t := .flush))
  refine fun c hc hs => ⟨(callPromptWriter_cols _).trans (hc _), (hp c hc hs).2⟩

theorem repaintLastLine_h {s0 : St} (h : Homing E s0 s) : Wp Any (repaintLastLine E s) (Homing E s0) := by
  unfold repaintLastLine
  dsimp only
  cases E.prompt with
  | none => exact repaint_h ((h.emit).emit)
  | some p => exact repaint_h (Homing.emit ((h.emit (t := .flush)).of))

/-! ## Commands -/

theorem cmdEndOfLine_h {s0 : St} (h : Homing E s0 s) :
    Wp Any (cmdEndOfLine E s) (fun p => Homing E s0 p.1) := by
  unfold cmdEndOfLine
  refine Wp.seq Wp.any fun _ _ => ?_
  split
  · refine Wp.seq (puts_h h _ _) fun s1 h1 => ?_
    exact Homing.emit (h1.of)
  · refine Wp.seq Wp.any fun _ _ => ?_
    refine Wp.seq (puts_h (Homing.of (h.emit (t := .gotoCol (s.topColumn + 1)))) _ _)
      fun s1 h1 => ?_
    exact Homing.emit (h1.of)

theorem cmdForwardChar_h {s0 : St} (h : Homing E s0 s) :
    Wp Any (cmdForwardChar E s) (fun p => Homing E s0 p.1) := by
  unfold cmdForwardChar
  split
  · split
    · exact Wp.contHome (replaceAndRepaint_h h _ _)
    · exact h
  · refine Wp.seq Wp.any fun _ _ => ?_
    split
    · refine Wp.seq (puts_h h _ _) fun s1 h1 => ?_
      exact h1.of
    · refine Wp.seq Wp.any fun _ _ => ?_
      refine Wp.seq Wp.any fun _ _ => ?_
      refine Wp.seq (puts_h (Homing.of (h.emit (t := .gotoCol (s.topColumn + 1)))) _ _)
        fun s1 h1 => ?_
      exact (Homing.emit (t := .eraseEol) h1).of

theorem cmdBackwardDeleteChar_h {s0 : St} (h : Homing E s0 s) :
    Wp Any (cmdBackwardDeleteChar E s) (fun p => Homing E s0 p.1) := by
  unfold cmdBackwardDeleteChar
  split
  · refine Wp.seq (deleteCells_h (s0 := s0) (h.of) _ _) fun p h1 => ?_
    obtain ⟨s1, n⟩ := p
    dsimp only
    refine Wp.contHome (repaint_h ?_)
    split
    · exact h1.of
    · exact h1
  · exact h

theorem cmdDeleteChar_h {s0 : St} (h : Homing E s0 s) :
    Wp Any (cmdDeleteChar E s) (fun p => Homing E s0 p.1) := by
  unfold cmdDeleteChar
  refine Wp.seq (deleteCells_h h _ _) fun p h1 => ?_
  exact Wp.contHome (repaint_h h1)

theorem selfInsertTail_h {s0 : St} (h : Homing E s0 s) (k : Bytes) :
    Wp Any (selfInsertTail E s k) (fun p => Homing E s0 p.1) := by
  unfold selfInsertTail
  refine Wp.seq (insertString_h h _ _) fun p h1 => ?_
  obtain ⟨s1, n⟩ := p
  dsimp only
  refine Wp.seq Wp.any fun _ _ => ?_
  refine Wp.contHome (repaint_h ?_)
  split
  · exact h1.of
  · exact h1.of

theorem cmdSelfInsert_h {s0 : St} (h : Homing E s0 s) (k : Bytes) :
    Wp Any (cmdSelfInsert E k s) (fun p => Homing E s0 p.1) := by
  unfold cmdSelfInsert
  dsimp only
  split
  · refine Wp.seq Wp.any fun c _ => ?_
    exact cmdBackwardDeleteChar_h (h.of)
  · split
    · refine Wp.seq Wp.any fun c _ => ?_
      refine Wp.seq (cmdBackwardDeleteChar_h h) fun p h1 => ?_
      exact selfInsertTail_h h1 _
    · split
      · exact selfInsertTail_h (h.of) _
      · exact selfInsertTail_h h _

theorem cmdKillWholeLine_h {s0 : St} (h : Homing E s0 s) :
    Wp Any (cmdKillWholeLine s) (fun p => Homing E s0 p.1) := by
  unfold cmdKillWholeLine
  dsimp only
  refine Wp.pure ?_
  exact ((h.emit (t := .gotoCol (s.topColumn + 1))).emit (t := .eraseEol)).of

theorem showHistory_h {s0 : St} (h : Homing E s0 s) :
    Wp Any (showHistory E s) (fun p => Homing E s0 p.1) := by
  unfold showHistory
  refine Wp.seq (cmdKillWholeLine_h h) fun p h1 => ?_
  obtain ⟨s1, n⟩ := p
  dsimp only
  refine Wp.seq Wp.any fun t _ => ?_
  split
  · refine Wp.seq (insertString_h h1 _ _) fun p h2 => ?_
    obtain ⟨s2, n⟩ := p
    dsimp only
    refine Wp.seq (cmdEndOfLine_h (s0 := s0) (h2.of)) fun p h3 => ?_
    exact h3
  · exact h1

theorem saveModifiedHistory_h {s0 : St} (h : Homing E s0 s) :
    Wp Any (saveModifiedHistory E s) (Homing E s0) := by
  unfold saveModifiedHistory
  dsimp only
  have last : ∀ b : Bool, Wp Any (if b = true then pure s else
      pure { s with modHist := fun i => if i = s.histPtr then some s.text else s.modHist i } : M St)
      (Homing E s0) := by
    intro b
    cases b
    · exact h.of
    · exact h
  split
  · exact Wp.seq (P := fun _ => True) (Wp.seq Wp.any fun _ _ => trivial) fun b _ => last b
  · exact last false


theorem call_homing {c : Cmd} (hb : c.builtin = true) (hq : c ≠ .quotedInsert)
    (hs : c ≠ .isearchBackward) (s : St) : Wp Any (Cmd.call E c s) (fun p => Homing E s p.1) := by
  have h := Homing.refl (E := E) s
  cases c with
  | quotedInsert => exact absurd rfl hq
  | isearchBackward => exact absurd rfl hs
  | custom f => cases hb
  | completion P =>
    exact cmdComplete_wp trivial h h.emit (fun _ => repaintAll_h h.emit.emit.emit)
      (fun _ _ _ _ => replaceAndRepaint_h h _ _)
  | acceptLine => exact h
  | interrupt => exact h.of
  | beginningOfLine => exact Wp.contHome (repaint_h (h.of))
  | backwardChar =>
    simp only [Cmd.call, cmdBackwardChar]
    split
    · exact h
    · exact Wp.contHome (repaint_h (h.of))
  | endOfLine => exact cmdEndOfLine_h h
  | forwardChar => exact cmdForwardChar_h h
  | backwardDeleteChar => exact cmdBackwardDeleteChar_h h
  | deleteChar => exact cmdDeleteChar_h h
  | deleteOrAbort =>
    simp only [Cmd.call, cmdDeleteOrAbort]
    split
    · exact cmdDeleteChar_h h
    · exact h
  | killLine =>
    simp only [Cmd.call, cmdKillLine]
    refine Wp.seq Wp.any fun _ _ => ?_
    refine Wp.seq Wp.any fun _ _ => ?_
    refine Wp.seq Wp.any fun _ _ => ?_
    exact (h.emit (t := .eraseEol)).of
  | killWholeLine => exact cmdKillWholeLine_h h
  | unixWordRubout =>
    simp only [Cmd.call, cmdUnixWordRubout]
    refine Wp.seq Wp.any fun _ _ => ?_
    refine Wp.seq Wp.any fun _ _ => ?_
    refine Wp.seq Wp.any fun _ _ => ?_
    refine Wp.seq (deleteCells_h (s0 := s) (h.of) _ _) fun p h1 => ?_
    refine Wp.contHome (repaint_h ?_)
    split
    · exact h1.of
    · exact h1.of
  | unixLineDiscard =>
    simp only [Cmd.call, cmdUnixLineDiscard]
    refine Wp.seq Wp.any fun _ _ => ?_
    refine Wp.seq (deleteCells_h (s0 := s) (h.of) _ _) fun p h1 => ?_
    exact Wp.contHome (repaint_h (h1.of))
  | clearScreen => exact Wp.contHome (repaintAll_h (h.emit))
  | repaintOnNewline => exact Wp.contHome (repaintAll_h (h.emit))
  | yank =>
    simp only [Cmd.call, cmdYank]
    cases s.clip with
    | none => exact h
    | some t => exact Wp.contHome (replaceAndRepaint_h h _ _)
  | yankWithQuote =>
    simp only [Cmd.call, cmdYankWithQuote]
    cases s.clip with
    | none => exact h
    | some t => exact Wp.contHome (replaceAndRepaint_h h _ _)
  | swapChar =>
    simp only [Cmd.call, cmdSwapChar]
    split
    · split
      · exact h
      · refine Wp.seq Wp.any fun _ _ => ?_
        exact Wp.contHome (puts_h (Homing.emit (h.of)) _ _)
    · split
      · exact h
      · refine Wp.seq Wp.any fun _ _ => ?_
        refine Wp.seq Wp.any fun _ _ => ?_
        refine Wp.contHome (puts_h ?_ _ _)
        split
        · exact (h.emit (t := .gotoCol (s.topColumn + 1))).of
        · exact (h.emit (t := .gotoCol (s.topColumn + 1))).of
  | backwardWord =>
    simp only [Cmd.call, cmdBackwardWord]
    refine Wp.seq Wp.any fun _ _ => ?_
    refine Wp.contHome (repaint_h ?_)
    split
    · exact h.of
    · exact h.of
  | forwardWord =>
    simp only [Cmd.call, cmdForwardWord]
    refine Wp.seq Wp.any fun _ _ => ?_
    refine Wp.seq Wp.any fun _ _ => ?_
    split
    · refine Wp.seq (puts_h h _ _) fun s1 h1 => ?_
      exact h1.of
    · exact Wp.contHome (repaint_h (h.of))
  | undo =>
    simp only [Cmd.call, cmdUndo]
    cases s.undoes with
    | nil => exact h.emit
    | cons u rest =>
      dsimp only
      have hg : ∀ r b, Homing E s { gotoHead { s with undoes := r } with buf := b } := fun r b =>
        (h.emit (t := .gotoCol (s.topColumn + 1))).of
      have last : ∀ b1 : List Cell, Wp Any (do
          let s2 ← (if u.text ≠ [] then do
              let cells := mojis2cells (stringToMoji E.cfg u.text)
              let b2 ← bufInsert { gotoHead { s with undoes := rest } with buf := b1 } u.pos cells
              pure { gotoHead { s with undoes := rest } with buf := b2, cursor := u.pos + cells.length }
            else pure { gotoHead { s with undoes := rest } with buf := b1, cursor := u.pos } : M St)
          let s2 ← repaint E (resetViewStart E s2)
          pure (s2, Result.cont)) (fun p => Homing E s p.1) := by
        intro b1
        have fin : ∀ s2, Homing E s s2 → Wp Any (do
            let s2 ← repaint E (resetViewStart E s2)
            pure (s2, Result.cont)) (fun p => Homing E s p.1) :=
          fun s2 h2 => Wp.contHome (repaint_h (h2.of))
        split
        · refine Wp.seq (P := Homing E s) ?_ fin
          refine Wp.seq Wp.any fun b2 _ => ?_
          exact (hg rest b2).of
        · exact Wp.seq (P := Homing E s) ((hg rest b1).of) fin
      split
      · exact Wp.seq Wp.any fun b1 _ => last b1
      · exact last _
  | previousHistory =>
    simp only [Cmd.call, cmdPreviousHistory]
    split
    · exact h
    · split
      · exact h
      · refine Wp.seq (saveModifiedHistory_h (s0 := s) ?_) fun s1 h1 => showHistory_h (h1.of)
        split
        · exact h.of
        · exact h
  | nextHistory =>
    simp only [Cmd.call, cmdNextHistory]
    split
    · exact h
    · split
      · exact h
      · exact Wp.seq (saveModifiedHistory_h h) fun s1 h1 => showHistory_h (h1.of)
  | selfInsert k => exact cmdSelfInsert_h h k


theorem getKey_h {s0 : St} {k : Option Bytes} {s' : St} (h : Homing E s0 s) (hg : getKey s = (k, s')) :
    Homing E s0 s' := by
  obtain ⟨rest, e⟩ := getKey_state hg
  rw [e]
  exact (h.emit (t := .await)).of

theorem cmdQuotedInsert_h (s : St) : Wp Any (cmdQuotedInsert E s) (fun p => Homing E s p.1) := by
  unfold cmdQuotedInsert
  dsimp only
  have h0 : Homing E s (s.emit .cursorOn) := (Homing.refl s).emit
  generalize hg : getKey (s.emit .cursorOn) = g
  obtain ⟨k, s1⟩ := g
  have h := getKey_h h0 hg
  cases k with
  | none => exact h.emit
  | some k =>
    dsimp only
    refine Wp.seq (cmdSelfInsert_h h k) fun p h1 => ?_
    exact Wp.pure (h1.emit)

theorem isearchLoop_h {s0 : St} (n : Nat) (it : ISt) (s : St) (h0 : Homing E s0 s) :
    Wp Any (isearchLoop E n it s) (fun p => Homing E s0 p.1) := by
  induction n generalizing it s with
  | zero => trivial
  | succ n ih =>
    unfold isearchLoop
    refine Wp.seq (drawLoop_h _ _ h0) fun s1 h1 => ?_
    dsimp only
    have h2 : Homing E s0 ((eraseline s1).emit .cursorOn) := (h1.emit (t := .eraseEol)).emit
    generalize hg : getKey ((eraseline s1).emit .cursorOn) = g
    obtain ⟨ok, s2⟩ := g
    have h2 := getKey_h h2 hg
    cases ok with
    | none => exact h2
    | some key =>
      dsimp only
      have h3 : Homing E s0 (gotoHead (s2.emit .cursorOff)) :=
        (h2.emit (t := .cursorOff)).emit (t := .gotoCol ((s2.emit .cursorOff).topColumn + 1))
      generalize gotoHead (s2.emit .cursorOff) = s3 at *
      split
      · exact ih _ _ h3
      · split
        · exact Wp.contHome (replaceAndRepaint_h (h3.of) _ _)
        · split
          · refine Wp.seq Wp.any fun p _ => ?_
            refine Wp.seq (puts_h h3 _ _) fun s4 h4 => ?_
            refine Wp.contHome (puts_h ?_ _ _)
            exact (h4.emit (t := .eraseEol)).emit (t := .gotoCol ((s4.emit .eraseEol).topColumn + 1))
          · split
            · exact Wp.seq Wp.any fun it' _ => ih _ _ h3
            · split
              · exact Wp.seq Wp.any fun it' _ => ih _ _ h3
              · split
                · exact ih _ _ h3
                · exact ih _ _ h3

/-- Every built-in command. -/
theorem call_h {c : Cmd} (hb : c.builtin = true) (s : St) :
    Wp Any (Cmd.call E c s) (fun p => Homing E s p.1) := by
  by_cases hq : c = .quotedInsert
  · subst hq; exact cmdQuotedInsert_h s
  · by_cases hs : c = .isearchBackward
    · subst hs
      exact isearchLoop_h _ _ _ ((Homing.refl s).emit (t := .gotoCol (s.topColumn + 1)))
    · exact call_homing hb hq hs s

theorem finish_h {s0 : St} (h : Homing E s0 s) (rc : Result) :
    Wp Any (finish E s rc) (fun p => Homing E s0 p.1) := by
  unfold finish
  have last : ∀ s1, Homing E s0 s1 → Wp Any (do
      let s1 := match E.lineFeed with
        | some f => s1.emit (.lit (f rc))
        | none => s1.emit (.lit [0x0A])
      let s1 := s1.emit .flush
      let text := s1.text
      let err := match rc with
        | .enter => RLErr.nil
        | .intr => .ctrlC
        | _ => .eof
      return (deferred s1, ({ text := text, err := err } : RLRes)) : M (St × RLRes))
      (fun p => Homing E s0 p.1) := by
    intro s1 h1
    refine Wp.pure ?_
    refine Homing.emit (t := .flush) (Homing.emit (t := .cursorOn) (Homing.emit (t := .flush) ?_))
    cases E.lineFeed with
    | none => exact h1.emit
    | some f => exact h1.emit
  cases s.suffix with
  | none => exact last s h
  | some x => exact Wp.seq (repaintNoSuffix_h (h.of)) last



/-- One key. -/
theorem step_h (hb : ∀ k, (lookupCommand E k).builtin = true) {s s' : St} {r : Option RLRes}
    (h : step E s = .ok (s', r)) : Homing E s s' := by
  have hr := Homing.refl (E := E) s
  have key : Wp Any (step E s) (fun p => Homing E s p.1) := by
    unfold step
    cases hi : s.input with
    | nil => exact ((hr.emit (t := .await)).emit (t := .cursorOn)).emit (t := .flush)
    | cons ev rest =>
      cases ev with
      | err x =>
        exact Homing.emit (t := .flush) (Homing.emit (t := .cursorOn) (Homing.of (s2 := { s.emit .await with input := rest })
          (hr.emit (t := .await))))
      | resize w =>
        dsimp only
        refine Wp.seq (P := Homing E s) ?_ fun s1 h1 => h1
        unfold onResize
        exact repaintLastLine_h hr.of
      | key k =>
        dsimp only
        unfold execCmd
        have h0 : Homing E s (({ s.emit .await with input := rest }).emit .cursorOff) :=
          Homing.emit (Homing.of (hr.emit (t := .await)))
        refine Wp.seq (call_h (hb k) _) fun p h1 => ?_
        obtain ⟨s1, rc⟩ := p
        have h2 : Homing E s (s1.emit .cursorOn) := (h0.trans h1).emit
        have fin : Wp Any (do
            let p ← finish E (s1.emit .cursorOn) rc
            return (p.1, some p.2)) (fun p => Homing E s p.1) :=
          Wp.seq (finish_h h2 rc) fun p h3 => h3
        cases rc
        · exact h2
        · exact fin
        · exact fin
        · exact fin
  exact key.ok h

/-- With a prompt that fits and is always equally wide, every move goes to the first column of the line. -/
theorem reachable_homing {c : Int} (hb : ∀ k, (lookupCommand E k).builtin = true) (hp : ∀ n, promptWidth E n = c)
    (he : E.promptErr = none) {w : World} (hf : c < w.termWidth - 3) (h : Reachable E w s) :
    s.topColumn = c ∧ ∃ t, s.out = w.out ++ t ∧ ∀ x ∈ t, x.home c := by
  induction h with
  | @start s h =>
    unfold startSt at h
    obtain ⟨⟨s1, n⟩, h1, h⟩ := bind_ok.mp h
    have h1' : Homing E (promptSt E w) s1 := (insertString_h (Homing.refl _) _ _).ok h1
    obtain ⟨s2, h2, h⟩ := bind_ok.mp h
    cases pure_ok.mp h
    have h3 : Homing E (promptSt E w) (if s1.cursor > s1.len then { s1 with cursor := s1.len } else s1) := by
      split
      · exact h1'.of
      · exact h1'
    have h4 : Homing E (promptSt E w) s2 := (repaint_h (E := E) (h3.of)).ok h2
    have h5 : Homing E (promptSt E w) (s2.emit .cursorOn) := h4.emit
    have h6 : (promptSt E w).topColumn = c ∧ ∃ t, (promptSt E w).out = w.out ++ t ∧ ∀ x ∈ t, x.home c := by
      unfold promptSt
      dsimp only
      rw [callPromptWriter_cols, he]
      have ht : ∀ q : St, (callPromptWriter E q).2.termWidth = q.termWidth := fun q =>
        (callPromptWriter_r (Roomy.refl q)).1
      dsimp only
      rw [ht]
      dsimp only
      rw [hp, if_neg (by omega)]
      refine ⟨rfl, ?_⟩
      unfold callPromptWriter
      cases E.prompt with
      | none => exact ⟨[_], rfl, fun x hx => by cases List.mem_singleton.mp hx; trivial⟩
      | some p => exact ⟨[_], rfl, fun x hx => by cases List.mem_singleton.mp hx; trivial⟩
    obtain ⟨a, t, b, d⟩ := h6
    obtain ⟨a', t', b', d'⟩ := h5 c hp a
    refine ⟨a', t ++ t', by rw [b', b, List.append_assoc], fun x hx => ?_⟩
    rcases List.mem_append.mp hx with h | h
    · exact d x h
    · exact d' x h
  | step _ hs ih =>
    obtain ⟨a, t, b, d⟩ := ih
    obtain ⟨a', t', b', d'⟩ := step_h hb hs c hp a
    refine ⟨a', t ++ t', by rw [b', b, List.append_assoc], fun x hx => ?_⟩
    rcases List.mem_append.mp hx with h | h
    · exact d x h
    · exact d' x h

end
end Readline
