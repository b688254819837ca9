import Verif.Proof.Ink
import Verif.Proof.VisSession
/-!
# Colours of everything a session prints

Every piece of output of a session is of one of the kinds of `Spec.Inked`.  The structure of the
proofs is that of `Proof/Trace.lean` and `Proof/Waits.lean`.
-/
namespace Readline
open Spec

def Any (_ : Panic) : Prop := True

theorem Wp.any {x : M α} : Wp Any x (fun _ => True) := by
  cases x <;> trivial

theorem Wp.of_ok {x : M α} {P : α → Prop} (h : ∀ a, x = .ok a → P a) : Wp Any x P := by
  cases x with
  | ok a => exact h a rfl
  | error e => trivial

/-- From `s` to `s'` only things of these kinds were written. -/
def Wrote (E : Env) (s s' : St) : Prop :=
  Colourful E.coloring → ∃ t, s'.out = s.out ++ t ∧ Inked E t

/-- Neither a unit nor a colour. -/
def Tok.plain : Tok → Bool
  | .glyph _ | .sgr _ => false
  | _ => true

namespace Wrote
variable {E : Env} {s s1 s2 : St}

theorem refl (s : St) : Wrote E s s := fun _ => ⟨[], by simp, .nil⟩

theorem trans (h1 : Wrote E s s1) (h2 : Wrote E s1 s2) : Wrote E s s2 := by
  intro hK
  obtain ⟨t1, a1, b1⟩ := h1 hK
  obtain ⟨t2, a2, b2⟩ := h2 hK
  exact ⟨t1 ++ t2, by rw [a2, a1, List.append_assoc], b1.append b2⟩

theorem emit (h : Wrote E s s1) {t : Tok} (ht : t.plain = true := by rfl) : Wrote E s (s1.emit t) :=
  h.trans fun _ => ⟨[t], rfl, .other t (fun m e => by rw [e] at ht; cases ht)
    (fun d e => by rw [e] at ht; cases ht)⟩

theorem of (h : Wrote E s s1) (ho : s2.out = s1.out := by rfl) : Wrote E s s2 := by
  intro hK
  obtain ⟨t, a, b⟩ := h hK
  exact ⟨t, by rw [ho, a], b⟩

end Wrote

theorem Wp.contAny {E : Env} {s0 : St} {x : M St} (h : Wp Any x (Wrote E s0)) :
    Wp Any (x >>= fun s => Pure.pure (s, Result.cont)) (fun p => Wrote E s0 p.1) :=
  Wp.seq h fun _ h1 => h1

section
variable {E : Env} {s : St}

theorem puts_k {s0 : St} (h : Wrote E s0 s) (lo hi : Int) : Wp Any (puts E s lo hi) (Wrote E s0) := by
  refine Wp.of_ok fun s' hs' => h.trans fun hK => ?_
  obtain ⟨b1, b2, b3, b4, b5, ts, e, hk, hi'⟩ := puts_inked hK hs'
  have hl : s'.buf.length = s.buf.length := by simp only [St.len] at b4; omega
  refine ⟨ts, e, .line (s'.buf.map Cell.moji) s.cursor lo.toNat hi.toNat ts (by omega)
    (by simp only [St.len] at b3; rw [List.length_map]; omega) hk (fun c => (hi' c).1) (fun c => ?_) (fun c => (hi' c).2.2)⟩
  rw [(hi' c).2.1]
  have he : unitColor E.cfg E.coloring (s'.buf.map Cell.moji) s.cursor =
      unitColor E.cfg E.coloring (s.buf.map Cell.moji) s.cursor := by
    funext i
    have := toldBefore_congr (C := E.cfg) (l := s'.buf.map Cell.moji) (l' := s.buf.map Cell.moji)
      (by rw [List.map_map, List.map_map]; exact b5) s.cursor (i + 1)
    simp only [unitColor, this]
  rw [unitColors, unitColors, he]

theorem suffixLoop_glyphs {C : Cfg} {vw : Int} (ms : List Moji) (w : Int) {s s' : St}
    (h : suffixLoop C vw ms w s = .ok s') : ∃ l : List Moji, s' = { s with out := s.out ++ l.map Tok.glyph } := by
  induction ms generalizing w s with
  | nil => cases h; exact ⟨[], by simp⟩
  | cons m ms ih =>
    rw [suffixLoop] at h
    split at h
    · cases h; exact ⟨[], by simp⟩
    · obtain ⟨s1, h1, h⟩ := bind_ok.mp h
      obtain ⟨l, e⟩ := ih _ h
      unfold printMoji at h1
      split at h1 <;> cases h1
      exact ⟨m :: l, by rw [e]; simp [St.emit]⟩

theorem drawLoop_glyphs {C : Cfg} {vw : Int} (ms : List Moji) (w : Int) {s s' : St}
    (h : drawLoop C vw ms w s = .ok s') : ∃ l : List Moji, s' = { s with out := s.out ++ l.map Tok.glyph } := by
  induction ms generalizing w s with
  | nil => cases h; exact ⟨[], by simp⟩
  | cons m ms ih =>
    rw [drawLoop] at h
    split at h
    · cases h; exact ⟨[], by simp⟩
    · obtain ⟨s1, h1, h⟩ := bind_ok.mp h
      obtain ⟨l, e⟩ := ih _ h
      unfold printMoji at h1
      split at h1 <;> cases h1
      exact ⟨m :: l, by rw [e]; simp [St.emit]⟩

theorem drawLoop_k {s0 : St} {C : Cfg} {vw : Int} (ms : List Moji) (w : Int) (h : Wrote E s0 s) :
    Wp Any (drawLoop C vw ms w s) (Wrote E s0) := by
  refine Wp.of_ok fun s' hs' => h.trans fun _ => ?_
  obtain ⟨l, e⟩ := drawLoop_glyphs ms w hs'
  exact ⟨_, by rw [e], .search l⟩

theorem repaintNoSuffix_k {s0 : St} (h : Wrote E s0 s) : Wp Any (repaintNoSuffix E s) (Wrote E s0) := by
  unfold repaintNoSuffix
  refine Wp.seq Wp.any fun p _ => ?_
  obtain ⟨n, w⟩ := p
  dsimp only
  refine Wp.seq (puts_k (h.emit) _ _) fun s1 h1 => ?_
  have last : ∀ s2, Wrote E s0 s2 →
      Wp Any (puts E (gotoHead (eraseline s2)) (gotoHead (eraseline s2)).viewStart
        (gotoHead (eraseline s2)).cursor) (Wrote E s0) :=
    fun s2 h2 => puts_k ((h2.emit).emit) _ _
  split
  · rename_i hp
    refine Wp.seq (P := Wrote E s0) ?_ last
    refine Wp.of_ok fun s2 h2 => h1.trans fun _ => ?_
    obtain ⟨s3, h3, h4⟩ := bind_ok.mp h2
    obtain ⟨l, e⟩ := suffixLoop_glyphs _ _ h3
    cases pure_ok.mp h4
    exact ⟨_, by show s3.out ++ _ = _; rw [e]; simp only [St.emit, List.append_assoc], .predicted l hp.1⟩
  · exact Wp.seq (P := Wrote E s0) h1 last

theorem updateSuffix_k {s0 : St} (h : Wrote E s0 s) : Wrote E s0 (updateSuffix E s) := by
  unfold updateSuffix
  split
  · exact h
  · split <;> exact h.of

theorem repaint_k {s0 : St} (h : Wrote E s0 s) : Wp Any (repaint E s) (Wrote E s0) :=
  repaintNoSuffix_k (updateSuffix_k h)

theorem insertString_k {s0 : St} (h : Wrote E s0 s) (pos : Int) (t : Bytes) :
    Wp Any (insertString E s pos t) (fun p => Wrote E s0 p.1) := by
  unfold insertString insertCells bufInsert
  dsimp only
  split
  · exact h.of
  · exact trivial

theorem deleteCells_k {s0 : St} (h : Wrote E s0 s) (pos n : Int) :
    Wp Any (deleteCells E s pos n) (fun p => Wrote E s0 p.1) := by
  unfold deleteCells
  split
  · exact h
  · refine Wp.seq Wp.any fun _ _ => ?_
    dsimp only
    exact Wp.seq Wp.any fun _ _ => h.of

theorem joinUndo_k {s0 : St} (h : Wrote E s0 s) : Wrote E s0 (joinUndo s) := by
  unfold joinUndo
  split
  · split
    · exact h
    · split
      · exact h
      · split
        · exact h
        · exact h.of
  · exact h

theorem replaceAndRepaint_k {s0 : St} (h : Wrote E s0 s) (pos : Int) (t : Bytes) :
    Wp Any (replaceAndRepaint E s pos t) (Wrote E s0) := by
  unfold replaceAndRepaint
  refine Wp.seq (deleteCells_k h _ _) fun p h1 => ?_
  obtain ⟨s1, n⟩ := p
  dsimp only
  refine Wp.seq (insertString_k h1 _ _) fun p h2 => ?_
  obtain ⟨s2, ins⟩ := p
  dsimp only
  refine repaint_k ?_
  have : Wrote E s0 (joinUndo { s2 with cursor := pos + ins.length }) := joinUndo_k (h2.of)
  exact this.of

theorem callPromptWriter_k {s0 : St} (h : Wrote E s0 s) : Wrote E s0 (callPromptWriter E s).2 := by
  unfold callPromptWriter
  cases E.prompt with
  | none => exact h.emit
  | some p => exact Wrote.emit (h.of) rfl

theorem repaintAll_k {s0 : St} (h : Wrote E s0 s) : Wp Any (repaintAll E s) (Wrote E s0) := by
  unfold repaintAll
  dsimp only
  refine repaint_k ?_
  exact (callPromptWriter_k (h.emit (t := .flush))).of

theorem repaintLastLine_k {s0 : St} (h : Wrote E s0 s) : Wp Any (repaintLastLine E s) (Wrote E s0) := by
  unfold repaintLastLine
  dsimp only
  cases E.prompt with
  | none => exact repaint_k ((h.emit).emit)
  | some p => exact repaint_k (Wrote.emit ((h.emit (t := .flush)).of))

/-! ## Commands -/

theorem cmdEndOfLine_k {s0 : St} (h : Wrote E s0 s) :
    Wp Any (cmdEndOfLine E s) (fun p => Wrote E s0 p.1) := by
  unfold cmdEndOfLine
  refine Wp.seq Wp.any fun _ _ => ?_
  split
  · refine Wp.seq (puts_k h _ _) fun s1 h1 => ?_
    exact Wrote.emit (h1.of)
  · refine Wp.seq Wp.any fun _ _ => ?_
    refine Wp.seq (puts_k (Wrote.of (h.emit (t := .gotoCol (s.topColumn + 1)))) _ _)
      fun s1 h1 => ?_
    exact Wrote.emit (h1.of)

theorem cmdForwardChar_k {s0 : St} (h : Wrote E s0 s) :
    Wp Any (cmdForwardChar E s) (fun p => Wrote E s0 p.1) := by
  unfold cmdForwardChar
  split
  · split
    · exact Wp.contAny (replaceAndRepaint_k h _ _)
    · exact h
  · refine Wp.seq Wp.any fun _ _ => ?_
    split
    · refine Wp.seq (puts_k h _ _) fun s1 h1 => ?_
      exact h1.of
    · refine Wp.seq Wp.any fun _ _ => ?_
      refine Wp.seq Wp.any fun _ _ => ?_
      refine Wp.seq (puts_k (Wrote.of (h.emit (t := .gotoCol (s.topColumn + 1)))) _ _)
        fun s1 h1 => ?_
      exact (Wrote.emit (t := .eraseEol) h1 rfl).of

theorem cmdBackwardDeleteChar_k {s0 : St} (h : Wrote E s0 s) :
    Wp Any (cmdBackwardDeleteChar E s) (fun p => Wrote E s0 p.1) := by
  unfold cmdBackwardDeleteChar
  split
  · refine Wp.seq (deleteCells_k (s0 := s0) (h.of) _ _) fun p h1 => ?_
    obtain ⟨s1, n⟩ := p
    dsimp only
    refine Wp.contAny (repaint_k ?_)
    split
    · exact h1.of
    · exact h1
  · exact h

theorem cmdDeleteChar_k {s0 : St} (h : Wrote E s0 s) :
    Wp Any (cmdDeleteChar E s) (fun p => Wrote E s0 p.1) := by
  unfold cmdDeleteChar
  refine Wp.seq (deleteCells_k h _ _) fun p h1 => ?_
  exact Wp.contAny (repaint_k h1)

theorem selfInsertTail_k {s0 : St} (h : Wrote E s0 s) (k : Bytes) :
    Wp Any (selfInsertTail E s k) (fun p => Wrote E s0 p.1) := by
  unfold selfInsertTail
  refine Wp.seq (insertString_k h _ _) fun p h1 => ?_
  obtain ⟨s1, n⟩ := p
  dsimp only
  refine Wp.seq Wp.any fun _ _ => ?_
  refine Wp.contAny (repaint_k ?_)
  split
  · exact h1.of
  · exact h1.of

theorem cmdSelfInsert_k {s0 : St} (h : Wrote E s0 s) (k : Bytes) :
    Wp Any (cmdSelfInsert E k s) (fun p => Wrote E s0 p.1) := by
  unfold cmdSelfInsert
  dsimp only
  split
  · refine Wp.seq Wp.any fun c _ => ?_
    exact cmdBackwardDeleteChar_k (h.of)
  · split
    · refine Wp.seq Wp.any fun c _ => ?_
      refine Wp.seq (cmdBackwardDeleteChar_k h) fun p h1 => ?_
      exact selfInsertTail_k h1 _
    · split
      · exact selfInsertTail_k (h.of) _
      · exact selfInsertTail_k h _

theorem cmdKillWholeLine_k {s0 : St} (h : Wrote E s0 s) :
    Wp Any (cmdKillWholeLine s) (fun p => Wrote E s0 p.1) := by
  unfold cmdKillWholeLine
  dsimp only
  refine Wp.pure ?_
  exact ((h.emit (t := .gotoCol (s.topColumn + 1))).emit (t := .eraseEol)).of

theorem showHistory_k {s0 : St} (h : Wrote E s0 s) :
    Wp Any (showHistory E s) (fun p => Wrote E s0 p.1) := by
  unfold showHistory
  refine Wp.seq (cmdKillWholeLine_k h) fun p h1 => ?_
  obtain ⟨s1, n⟩ := p
  dsimp only
  refine Wp.seq Wp.any fun t _ => ?_
  split
  · refine Wp.seq (insertString_k h1 _ _) fun p h2 => ?_
    obtain ⟨s2, n⟩ := p
    dsimp only
    refine Wp.seq (cmdEndOfLine_k (s0 := s0) (h2.of)) fun p h3 => ?_
    exact h3
  · exact h1

theorem saveModifiedHistory_k {s0 : St} (h : Wrote E s0 s) :
    Wp Any (saveModifiedHistory E s) (Wrote E s0) := by
  unfold saveModifiedHistory
  dsimp only
  have last : ∀ b : Bool, Wp Any (if b = true then pure s else
      pure { s with modHist := fun i => if i = s.histPtr then some s.text else s.modHist i } : M St)
      (Wrote E s0) := by
    intro b
    cases b
    · exact h.of
    · exact h
  split
  · exact Wp.seq (P := fun _ => True) (Wp.seq Wp.any fun _ _ => trivial) fun b _ => last b
  · exact last false


theorem call_wrote {c : Cmd} (hb : c.builtin = true) (hq : c ≠ .quotedInsert)
    (hs : c ≠ .isearchBackward) (s : St) : Wp Any (Cmd.call E c s) (fun p => Wrote E s p.1) := by
  have h := Wrote.refl (E := E) s
  cases c with
  | quotedInsert => exact absurd rfl hq
  | isearchBackward => exact absurd rfl hs
  | custom f => cases hb
  | completion P =>
    exact cmdComplete_wp trivial h h.emit (fun _ => repaintAll_k h.emit.emit.emit)
      (fun _ _ _ _ => replaceAndRepaint_k h _ _)
  | acceptLine => exact h
  | interrupt => exact h.of
  | beginningOfLine => exact Wp.contAny (repaint_k (h.of))
  | backwardChar =>
    simp only [Cmd.call, cmdBackwardChar]
    split
    · exact h
    · exact Wp.contAny (repaint_k (h.of))
  | endOfLine => exact cmdEndOfLine_k h
  | forwardChar => exact cmdForwardChar_k h
  | backwardDeleteChar => exact cmdBackwardDeleteChar_k h
  | deleteChar => exact cmdDeleteChar_k h
  | deleteOrAbort =>
    simp only [Cmd.call, cmdDeleteOrAbort]
    split
    · exact cmdDeleteChar_k h
    · exact h
  | killLine =>
    simp only [Cmd.call, cmdKillLine]
    refine Wp.seq Wp.any fun _ _ => ?_
    refine Wp.seq Wp.any fun _ _ => ?_
    refine Wp.seq Wp.any fun _ _ => ?_
    exact (h.emit (t := .eraseEol)).of
  | killWholeLine => exact cmdKillWholeLine_k h
  | unixWordRubout =>
    simp only [Cmd.call, cmdUnixWordRubout]
    refine Wp.seq Wp.any fun _ _ => ?_
    refine Wp.seq Wp.any fun _ _ => ?_
    refine Wp.seq Wp.any fun _ _ => ?_
    refine Wp.seq (deleteCells_k (s0 := s) (h.of) _ _) fun p h1 => ?_
    refine Wp.contAny (repaint_k ?_)
    split
    · exact h1.of
    · exact h1.of
  | unixLineDiscard =>
    simp only [Cmd.call, cmdUnixLineDiscard]
    refine Wp.seq Wp.any fun _ _ => ?_
    refine Wp.seq (deleteCells_k (s0 := s) (h.of) _ _) fun p h1 => ?_
    exact Wp.contAny (repaint_k (h1.of))
  | clearScreen => exact Wp.contAny (repaintAll_k (h.emit))
  | repaintOnNewline => exact Wp.contAny (repaintAll_k (h.emit))
  | yank =>
    simp only [Cmd.call, cmdYank]
    cases s.clip with
    | none => exact h
    | some t => exact Wp.contAny (replaceAndRepaint_k h _ _)
  | yankWithQuote =>
    simp only [Cmd.call, cmdYankWithQuote]
    cases s.clip with
    | none => exact h
    | some t => exact Wp.contAny (replaceAndRepaint_k h _ _)
  | swapChar =>
    simp only [Cmd.call, cmdSwapChar]
    split
    · split
      · exact h
      · refine Wp.seq Wp.any fun _ _ => ?_
        exact Wp.contAny (puts_k (Wrote.emit (h.of)) _ _)
    · split
      · exact h
      · refine Wp.seq Wp.any fun _ _ => ?_
        refine Wp.seq Wp.any fun _ _ => ?_
        refine Wp.contAny (puts_k ?_ _ _)
        split
        · exact (h.emit (t := .gotoCol (s.topColumn + 1))).of
        · exact (h.emit (t := .gotoCol (s.topColumn + 1))).of
  | backwardWord =>
    simp only [Cmd.call, cmdBackwardWord]
    refine Wp.seq Wp.any fun _ _ => ?_
    refine Wp.contAny (repaint_k ?_)
    split
    · exact h.of
    · exact h.of
  | forwardWord =>
    simp only [Cmd.call, cmdForwardWord]
    refine Wp.seq Wp.any fun _ _ => ?_
    refine Wp.seq Wp.any fun _ _ => ?_
    split
    · refine Wp.seq (puts_k h _ _) fun s1 h1 => ?_
      exact h1.of
    · exact Wp.contAny (repaint_k (h.of))
  | undo =>
    simp only [Cmd.call, cmdUndo]
    cases s.undoes with
    | nil => exact h.emit
    | cons u rest =>
      dsimp only
      have hg : ∀ r b, Wrote E s { gotoHead { s with undoes := r } with buf := b } := fun r b =>
        (h.emit (t := .gotoCol (s.topColumn + 1))).of
      have last : ∀ b1 : List Cell, Wp Any (do
          let s2 ← (if u.text ≠ [] then do
              let cells := mojis2cells (stringToMoji E.cfg u.text)
              let b2 ← bufInsert { gotoHead { s with undoes := rest } with buf := b1 } u.pos cells
              pure { gotoHead { s with undoes := rest } with buf := b2, cursor := u.pos + cells.length }
            else pure { gotoHead { s with undoes := rest } with buf := b1, cursor := u.pos } : M St)
          let s2 ← repaint E (resetViewStart E s2)
          pure (s2, Result.cont)) (fun p => Wrote E s p.1) := by
        intro b1
        have fin : ∀ s2, Wrote E s s2 → Wp Any (do
            let s2 ← repaint E (resetViewStart E s2)
            pure (s2, Result.cont)) (fun p => Wrote E s p.1) :=
          fun s2 h2 => Wp.contAny (repaint_k (h2.of))
        split
        · refine Wp.seq (P := Wrote E s) ?_ fin
          refine Wp.seq Wp.any fun b2 _ => ?_
          exact (hg rest b2).of
        · exact Wp.seq (P := Wrote E s) ((hg rest b1).of) fin
      split
      · exact Wp.seq Wp.any fun b1 _ => last b1
      · exact last _
  | previousHistory =>
    simp only [Cmd.call, cmdPreviousHistory]
    split
    · exact h
    · split
      · exact h
      · refine Wp.seq (saveModifiedHistory_k (s0 := s) ?_) fun s1 h1 => showHistory_k (h1.of)
        split
        · exact h.of
        · exact h
  | nextHistory =>
    simp only [Cmd.call, cmdNextHistory]
    split
    · exact h
    · split
      · exact h
      · exact Wp.seq (saveModifiedHistory_k h) fun s1 h1 => showHistory_k (h1.of)
  | selfInsert k => exact cmdSelfInsert_k h k


theorem getKey_k {s0 : St} {k : Option Bytes} {s' : St} (h : Wrote E s0 s) (hg : getKey s = (k, s')) :
    Wrote E s0 s' := by
  obtain ⟨rest, e⟩ := getKey_state hg
  rw [e]
  exact (h.emit (t := .await)).of

theorem cmdQuotedInsert_k (s : St) : Wp Any (cmdQuotedInsert E s) (fun p => Wrote E s p.1) := by
  unfold cmdQuotedInsert
  dsimp only
  have h0 : Wrote E s (s.emit .cursorOn) := (Wrote.refl s).emit
  generalize hg : getKey (s.emit .cursorOn) = g
  obtain ⟨k, s1⟩ := g
  have h := getKey_k h0 hg
  cases k with
  | none => exact h.emit
  | some k =>
    dsimp only
    refine Wp.seq (cmdSelfInsert_k h k) fun p h1 => ?_
    exact Wp.pure (h1.emit)

theorem isearchLoop_k {s0 : St} (n : Nat) (it : ISt) (s : St) (h0 : Wrote E s0 s) :
    Wp Any (isearchLoop E n it s) (fun p => Wrote E s0 p.1) := by
  induction n generalizing it s with
  | zero => trivial
  | succ n ih =>
    unfold isearchLoop
    refine Wp.seq (drawLoop_k _ _ h0) fun s1 h1 => ?_
    dsimp only
    have h2 : Wrote E s0 ((eraseline s1).emit .cursorOn) := (h1.emit (t := .eraseEol)).emit
    generalize hg : getKey ((eraseline s1).emit .cursorOn) = g
    obtain ⟨ok, s2⟩ := g
    have h2 := getKey_k h2 hg
    cases ok with
    | none => exact h2
    | some key =>
      dsimp only
      have h3 : Wrote E s0 (gotoHead (s2.emit .cursorOff)) :=
        (h2.emit (t := .cursorOff)).emit (t := .gotoCol ((s2.emit .cursorOff).topColumn + 1))
      generalize gotoHead (s2.emit .cursorOff) = s3 at *
      split
      · exact ih _ _ h3
      · split
        · exact Wp.contAny (replaceAndRepaint_k (h3.of) _ _)
        · split
          · refine Wp.seq Wp.any fun p _ => ?_
            refine Wp.seq (puts_k h3 _ _) fun s4 h4 => ?_
            refine Wp.contAny (puts_k ?_ _ _)
            exact (h4.emit (t := .eraseEol)).emit (t := .gotoCol ((s4.emit .eraseEol).topColumn + 1))
          · split
            · exact Wp.seq Wp.any fun it' _ => ih _ _ h3
            · split
              · exact Wp.seq Wp.any fun it' _ => ih _ _ h3
              · split
                · exact ih _ _ h3
                · exact ih _ _ h3

/-- Every built-in command. -/
theorem call_k {c : Cmd} (hb : c.builtin = true) (s : St) :
    Wp Any (Cmd.call E c s) (fun p => Wrote E s p.1) := by
  by_cases hq : c = .quotedInsert
  · subst hq; exact cmdQuotedInsert_k s
  · by_cases hs : c = .isearchBackward
    · subst hs
      exact isearchLoop_k _ _ _ ((Wrote.refl s).emit (t := .gotoCol (s.topColumn + 1)))
    · exact call_wrote hb hq hs s

theorem finish_k {s0 : St} (h : Wrote E s0 s) (rc : Result) :
    Wp Any (finish E s rc) (fun p => Wrote E s0 p.1) := by
  unfold finish
  have last : ∀ s1, Wrote E s0 s1 → Wp Any (do
      let s1 := match E.lineFeed with
        | some f => s1.emit (.lit (f rc))
        | none => s1.emit (.lit [0x0A])
      let s1 := s1.emit .flush
      let text := s1.text
      let err := match rc with
        | .enter => RLErr.nil
        | .intr => .ctrlC
        | _ => .eof
      return (deferred s1, ({ text := text, err := err } : RLRes)) : M (St × RLRes))
      (fun p => Wrote E s0 p.1) := by
    intro s1 h1
    refine Wp.pure ?_
    refine Wrote.emit (t := .flush) (Wrote.emit (t := .cursorOn) (Wrote.emit (t := .flush) ?_))
    cases E.lineFeed with
    | none => exact h1.emit
    | some f => exact h1.emit
  cases s.suffix with
  | none => exact last s h
  | some x => exact Wp.seq (repaintNoSuffix_k (h.of)) last

theorem step_k (hb : ∀ k, (lookupCommand E k).builtin = true) (s : St) :
    Wp Any (step E s) (fun p => Wrote E s p.1) := by
  unfold step
  have h := Wrote.refl (E := E) s
  cases hi : s.input with
  | nil => exact Wrote.emit (t := .flush) (Wrote.emit (t := .cursorOn) (Wrote.emit (t := .await) h))
  | cons ev rest =>
    cases ev with
    | err x =>
      exact Wrote.emit (t := .flush) (Wrote.emit (t := .cursorOn) (Wrote.of (Wrote.emit (t := .await) h)))
    | resize w =>
      dsimp only
      refine Wp.seq (P := Wrote E s) ?_ fun s1 h1 => h1
      unfold onResize
      exact repaintLastLine_k (h.of)
    | key k =>
      dsimp only
      unfold execCmd
      have h0 : Wrote E s (({ s.emit .await with input := rest }).emit .cursorOff) :=
        Wrote.emit (Wrote.of (Wrote.emit (t := .await) h))
      refine Wp.seq (call_k (hb k) _) fun p h1 => ?_
      obtain ⟨s1, rc⟩ := p
      have h2 : Wrote E s (s1.emit .cursorOn) := (h0.trans h1).emit
      have fin : Wp Any (do
          let p ← finish E (s1.emit .cursorOn) rc
          return (p.1, some p.2)) (fun p => Wrote E s p.1) :=
        Wp.seq (finish_k h2 rc) fun p h3 => h3
      cases rc
      · exact h2
      · exact fin
      · exact fin
      · exact fin

/-- A session, up to a state in which a key is awaited. -/
theorem reachable_k (hb : ∀ k, (lookupCommand E k).builtin = true) {w : World} (h : Reachable E w s)
    (hK : Colourful E.coloring) : ∃ t, s.out = w.out ++ t ∧ Inked E t := by
  have key : ∀ s, Reachable E w s → Wrote E ({ out := w.out } : St) s := by
    intro s h
    induction h with
    | @start s h =>
      unfold startSt at h
      obtain ⟨⟨s1, n⟩, h1, h⟩ := bind_ok.mp h
      have h0 : Wrote E ({ out := w.out } : St) (promptSt E w) := by
        unfold promptSt callPromptWriter
        have hr := Wrote.refl (E := E) ({ out := w.out } : St)
        cases E.prompt with
        | none =>
          cases E.promptErr with
          | none =>
            dsimp only
            split
            · exact (Wrote.emit (t := .lit [0x0A]) (Wrote.emit (t := .lit [0x0A, 0x3E, 0x20]) (hr.of))).of
            · exact (Wrote.emit (t := .lit [0x0A, 0x3E, 0x20]) (hr.of)).of
          | some e =>
            exact (Wrote.emit (t := .lit (e ++ [0x0A, 0x24, 0x20]))
              (Wrote.emit (t := .lit [0x0A, 0x3E, 0x20]) (hr.of))).of
        | some p =>
          cases E.promptErr with
          | none =>
            dsimp only
            split
            · exact (Wrote.emit (t := .lit [0x0A]) (Wrote.emit (t := .lit (p w.promptN)) (hr.of))).of
            · exact (Wrote.emit (t := .lit (p w.promptN)) (hr.of)).of
          | some e =>
            exact (Wrote.emit (t := .lit (e ++ [0x0A, 0x24, 0x20]))
              (Wrote.emit (t := .lit (p w.promptN)) (hr.of))).of
      have h1' : Wrote E ({ out := w.out } : St) s1 := (insertString_k h0 _ _).ok h1
      obtain ⟨s2, h2, h⟩ := bind_ok.mp h
      cases pure_ok.mp h
      refine Wrote.emit (t := .cursorOn) ?_
      have h3 : Wrote E ({ out := w.out } : St)
          (if s1.cursor > s1.len then { s1 with cursor := s1.len } else s1) := by
        split
        · exact h1'.of
        · exact h1'
      exact (repaint_k (E := E) (h3.of)).ok h2
    | step _ hs ih => exact ih.trans ((step_k hb _).ok hs)
  exact key s h hK

end
end Readline
