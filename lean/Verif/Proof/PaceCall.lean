import Verif.Spec.Pace
import Verif.Proof.Ink
import Verif.Proof.InkCall
/-!
# In which order a session writes colours

Every piece of output of a session is of one of the kinds of `Spec.Paced`.  The structure of the proofs is that of `Proof/InkCall.lean`.
-/
namespace Readline
open Spec

/-- From `s` to `s'` only things of these kinds were written. -/
def Paces (E : Env) (s s' : St) : Prop :=
  Colourful E.coloring → ∃ t, s'.out = s.out ++ t ∧ Paced E t

namespace Paces
variable {E : Env} {s s1 s2 : St}

theorem refl (s : St) : Paces E s s := fun _ => ⟨[], by simp, .nil⟩

theorem trans (h1 : Paces E s s1) (h2 : Paces E s1 s2) : Paces E s s2 := by
  intro hK
  obtain ⟨t1, a1, b1⟩ := h1 hK
  obtain ⟨t2, a2, b2⟩ := h2 hK
  exact ⟨t1 ++ t2, by rw [a2, a1, List.append_assoc], b1.append b2⟩

theorem emit (h : Paces E s s1) {t : Tok} (ht : wordless t = true := by rfl) : Paces E s (s1.emit t) :=
  h.trans fun _ => ⟨[t], rfl, .wordless t ht⟩

theorem say (h : Paces E s s1) {b : Bytes} (hb : Bare E b) : Paces E s (s1.emit (.lit b)) :=
  h.trans fun _ => ⟨[.lit b], rfl, .bare b hb⟩

theorem of (h : Paces E s s1) (ho : s2.out = s1.out := by rfl) : Paces E s s2 := by
  intro hK
  obtain ⟨t, a, b⟩ := h hK
  exact ⟨t, by rw [ho, a], b⟩

end Paces

/-- From `s` to `s'` anything may have been written. -/
def Strews (E : Env) (s s' : St) : Prop :=
  Colourful E.coloring → ∃ t, s'.out = s.out ++ t ∧ Strewn E t

theorem Spec.Bare.uttered {E : Env} {b : Bytes} (h : Bare E b) : Uttered E b := by
  rcases h with h | h | h
  · exact .inr (.inr (.inl h))
  · exact .inr (.inr (.inr (.inl h)))
  · exact .inr (.inr (.inr (.inr (.inl h))))

theorem Spec.Paced.strewn {E : Env} {t : List Tok} (h : Paced E t) : Strewn E t := by
  induction h with
  | nil => exact .nil
  | append _ _ h1 h2 => exact .append h1 h2
  | wordless t h => exact .wordless t h
  | bare b h => exact .said b h.uttered
  | drawn h1 h2 => exact .append h1 (.line _ h2)
  | search ms => exact .search ms

theorem Paces.strews {E : Env} {s s1 : St} (h : Paces E s s1) : Strews E s s1 := by
  intro hK
  obtain ⟨t, a, b⟩ := h hK
  exact ⟨t, a, b.strewn⟩

namespace Strews
variable {E : Env} {s s1 s2 : St}

theorem trans (h1 : Strews E s s1) (h2 : Strews E s1 s2) : Strews E s s2 := by
  intro hK
  obtain ⟨t1, a1, b1⟩ := h1 hK
  obtain ⟨t2, a2, b2⟩ := h2 hK
  exact ⟨t1 ++ t2, by rw [a2, a1, List.append_assoc], b1.append b2⟩

theorem emit (h : Strews E s s1) {t : Tok} (ht : wordless t = true := by rfl) : Strews E s (s1.emit t) :=
  h.trans fun _ => ⟨[t], rfl, .wordless t ht⟩

theorem say (h : Strews E s s1) {b : Bytes} (hb : Uttered E b) : Strews E s (s1.emit (.lit b)) :=
  h.trans fun _ => ⟨[.lit b], rfl, .said b hb⟩

theorem of (h : Strews E s s1) (ho : s2.out = s1.out := by rfl) : Strews E s s2 := by
  intro hK
  obtain ⟨t, a, b⟩ := h hK
  exact ⟨t, by rw [ho, a], b⟩

end Strews

theorem Wp.contPaces {E : Env} {s0 : St} {x : M St} (h : Wp Any x (Paces E s0)) :
    Wp Any (x >>= fun s => Pure.pure (s, Result.cont)) (fun p => Paces E s0 p.1) :=
  Wp.seq h fun _ h1 => h1

theorem uttered_none {E : Env} (h : E.prompt = none) : Uttered E [0x0A, 0x3E, 0x20] ∧ Uttered E [0x0D, 0x3E, 0x20] := by
  constructor <;> refine .inl ?_ <;> unfold PromptText <;> rw [h]
  · exact .inl rfl
  · exact .inr rfl

theorem uttered_some {E : Env} {p : Nat → Bytes} (h : E.prompt = some p) (n : Nat) :
    Uttered E (p n) ∧ Uttered E ((0x0D :: p n).map (fun b => if b = 0x0A then 0x0D else b)) := by
  constructor <;> refine .inl ?_ <;> unfold PromptText <;> rw [h]
  · exact ⟨n, .inl rfl⟩
  · exact ⟨n, .inr rfl⟩

theorem uttered_bell {E : Env} : Uttered E [0x07] := .inr (.inr (.inl rfl))

theorem uttered_lf {E : Env} : Uttered E [0x0A] := .inr (.inr (.inr (.inl rfl)))

theorem puts_lined {E : Env} {s s' : St} {lo hi : Int} (hK : Colourful E.coloring) (h : puts E s lo hi = .ok s') :
    ∃ ts, s'.out = s.out ++ ts ∧ Lined E ts := by
  obtain ⟨-, -, -, -, -, ts, e, hk, hi'⟩ := puts_inked hK h
  exact ⟨ts, e, hk, fun c => (hi' c).2.2⟩

section
variable {E : Env} {s : St}

theorem puts_p {s0 : St} (h : Paces E s0 s) (lo hi : Int) : Wp Any (puts E s lo hi) (Paces E s0) := by
  refine Wp.of_ok fun s' hs' => h.trans fun hK => ?_
  obtain ⟨ts, e, hl⟩ := puts_lined hK hs'
  exact ⟨[] ++ ts, e, .drawn .nil hl⟩

theorem drawLoop_p {s0 : St} {C : Cfg} {vw : Int} (ms : List Moji) (w : Int) (h : Paces E s0 s) :
    Wp Any (drawLoop C vw ms w s) (Paces E s0) := by
  refine Wp.of_ok fun s' hs' => h.trans fun _ => ?_
  obtain ⟨l, e⟩ := drawLoop_glyphs ms w hs'
  exact ⟨_, by rw [e], .search l⟩

/-- The end of a repaint is the part of the line before the cursor. -/
theorem repaintNoSuffix_lined {s0 s' : St} (hK : Colourful E.coloring) (h0 : Strews E s0 s) (h : repaintNoSuffix E s = .ok s') :
    ∃ a b, s'.out = s0.out ++ (a ++ b) ∧ Strewn E a ∧ Lined E b := by
  unfold repaintNoSuffix at h
  obtain ⟨⟨n, wd⟩, -, h⟩ := bind_ok.mp h
  obtain ⟨s1, h1, h⟩ := bind_ok.mp h
  obtain ⟨s2, h2, h⟩ := bind_ok.mp h
  have p1 : Strews E s0 s1 := h0.trans (Paces.strews ((puts_p ((Paces.refl s).emit) _ _).ok h1))
  have p2 : Strews E s0 s2 := by
    split at h2
    · rename_i hp
      refine p1.trans fun _ => ?_
      obtain ⟨s3, h3, h4⟩ := bind_ok.mp h2
      obtain ⟨l, e⟩ := suffixLoop_glyphs _ _ h3
      cases pure_ok.mp h4
      exact ⟨_, by show s3.out ++ _ = _; rw [e]; simp only [St.emit, List.append_assoc], .predicted l hp.1⟩
    · cases h2
      exact p1
  have p3 : Strews E s0 (gotoHead (eraseline s2)) := (p2.emit (t := .eraseEol)).emit (t := .gotoCol _)
  obtain ⟨a, e, ha⟩ := p3 hK
  obtain ⟨b, e', hb⟩ := puts_lined hK h
  exact ⟨a, b, by rw [e', e, List.append_assoc], ha, hb⟩

theorem repaintNoSuffix_s {s0 : St} (h : Strews E s0 s) : Wp Any (repaintNoSuffix E s) (Paces E s0) := by
  refine Wp.of_ok fun s' hs' hK => ?_
  obtain ⟨a, b, e, ha, hb⟩ := repaintNoSuffix_lined hK h hs'
  exact ⟨_, e, .drawn ha hb⟩

theorem repaintNoSuffix_p {s0 : St} (h : Paces E s0 s) : Wp Any (repaintNoSuffix E s) (Paces E s0) := repaintNoSuffix_s h.strews

theorem updateSuffix_s {s0 : St} (h : Strews E s0 s) : Strews E s0 (updateSuffix E s) := by
  unfold updateSuffix
  split
  · exact h
  · split <;> exact h.of

theorem repaint_s {s0 : St} (h : Strews E s0 s) : Wp Any (repaint E s) (Paces E s0) :=
  repaintNoSuffix_s (updateSuffix_s h)

theorem repaint_p {s0 : St} (h : Paces E s0 s) : Wp Any (repaint E s) (Paces E s0) := repaint_s h.strews

theorem insertString_p {s0 : St} (h : Paces E s0 s) (pos : Int) (t : Bytes) :
    Wp Any (insertString E s pos t) (fun p => Paces E s0 p.1) := by
  unfold insertString insertCells bufInsert
  dsimp only
  split
  · exact h.of
  · exact trivial

theorem deleteCells_p {s0 : St} (h : Paces E s0 s) (pos n : Int) :
    Wp Any (deleteCells E s pos n) (fun p => Paces E s0 p.1) := by
  unfold deleteCells
  split
  · exact h
  · refine Wp.seq Wp.any fun _ _ => ?_
    dsimp only
    exact Wp.seq Wp.any fun _ _ => h.of

theorem joinUndo_p {s0 : St} (h : Paces E s0 s) : Paces E s0 (joinUndo s) := by
  unfold joinUndo
  split
  · split
    · exact h
    · split
      · exact h
      · split
        · exact h
        · exact h.of
  · exact h

theorem replaceAndRepaint_p {s0 : St} (h : Paces E s0 s) (pos : Int) (t : Bytes) :
    Wp Any (replaceAndRepaint E s pos t) (Paces E s0) := by
  unfold replaceAndRepaint
  refine Wp.seq (deleteCells_p h _ _) fun p h1 => ?_
  obtain ⟨s1, n⟩ := p
  dsimp only
  refine Wp.seq (insertString_p h1 _ _) fun p h2 => ?_
  obtain ⟨s2, ins⟩ := p
  dsimp only
  refine repaint_p ?_
  have : Paces E s0 (joinUndo { s2 with cursor := pos + ins.length }) := joinUndo_p (h2.of)
  exact this.of

theorem callPromptWriter_s {s0 : St} (h : Strews E s0 s) : Strews E s0 (callPromptWriter E s).2 := by
  unfold callPromptWriter
  cases hp : E.prompt with
  | none => exact h.say (uttered_none hp).1
  | some p => exact Strews.say (h.of) (uttered_some hp _).1

theorem repaintAll_s {s0 : St} (h : Strews E s0 s) : Wp Any (repaintAll E s) (Paces E s0) := by
  unfold repaintAll
  dsimp only
  refine repaint_s ?_
  exact (callPromptWriter_s (h.emit (t := .flush))).of

theorem repaintLastLine_p {s0 : St} (h : Paces E s0 s) : Wp Any (repaintLastLine E s) (Paces E s0) := by
  unfold repaintLastLine
  dsimp only
  cases hp : E.prompt with
  | none => exact repaint_s ((h.strews.emit (t := .flush)).say (uttered_none hp).2)
  | some p => exact repaint_s (Strews.say ((h.strews.emit (t := .flush)).of) (uttered_some hp _).2)

/-! ## Commands -/

theorem cmdEndOfLine_p {s0 : St} (h : Paces E s0 s) :
    Wp Any (cmdEndOfLine E s) (fun p => Paces E s0 p.1) := by
  unfold cmdEndOfLine
  refine Wp.seq Wp.any fun _ _ => ?_
  split
  · refine Wp.seq (puts_p h _ _) fun s1 h1 => ?_
    exact Paces.emit (h1.of)
  · refine Wp.seq Wp.any fun _ _ => ?_
    refine Wp.seq (puts_p (Paces.of (h.emit (t := .gotoCol (s.topColumn + 1)))) _ _)
      fun s1 h1 => ?_
    exact Paces.emit (h1.of)

theorem cmdForwardChar_p {s0 : St} (h : Paces E s0 s) :
    Wp Any (cmdForwardChar E s) (fun p => Paces E s0 p.1) := by
  unfold cmdForwardChar
  split
  · split
    · exact Wp.contPaces (replaceAndRepaint_p h _ _)
    · exact h
  · refine Wp.seq Wp.any fun _ _ => ?_
    split
    · refine Wp.seq (puts_p h _ _) fun s1 h1 => ?_
      exact h1.of
    · refine Wp.seq Wp.any fun _ _ => ?_
      refine Wp.seq Wp.any fun _ _ => ?_
      refine Wp.seq (puts_p (Paces.of (h.emit (t := .gotoCol (s.topColumn + 1)))) _ _)
        fun s1 h1 => ?_
      exact (Paces.emit (t := .eraseEol) h1 rfl).of

theorem cmdBackwardDeleteChar_p {s0 : St} (h : Paces E s0 s) :
    Wp Any (cmdBackwardDeleteChar E s) (fun p => Paces E s0 p.1) := by
  unfold cmdBackwardDeleteChar
  split
  · refine Wp.seq (deleteCells_p (s0 := s0) (h.of) _ _) fun p h1 => ?_
    obtain ⟨s1, n⟩ := p
    dsimp only
    refine Wp.contPaces (repaint_p ?_)
    split
    · exact h1.of
    · exact h1
  · exact h

theorem cmdDeleteChar_p {s0 : St} (h : Paces E s0 s) :
    Wp Any (cmdDeleteChar E s) (fun p => Paces E s0 p.1) := by
  unfold cmdDeleteChar
  refine Wp.seq (deleteCells_p h _ _) fun p h1 => ?_
  exact Wp.contPaces (repaint_p h1)

theorem selfInsertTail_p {s0 : St} (h : Paces E s0 s) (k : Bytes) :
    Wp Any (selfInsertTail E s k) (fun p => Paces E s0 p.1) := by
  unfold selfInsertTail
  refine Wp.seq (insertString_p h _ _) fun p h1 => ?_
  obtain ⟨s1, n⟩ := p
  dsimp only
  refine Wp.seq Wp.any fun _ _ => ?_
  refine Wp.contPaces (repaint_p ?_)
  split
  · exact h1.of
  · exact h1.of

theorem cmdSelfInsert_p {s0 : St} (h : Paces E s0 s) (k : Bytes) :
    Wp Any (cmdSelfInsert E k s) (fun p => Paces E s0 p.1) := by
  unfold cmdSelfInsert
  dsimp only
  split
  · refine Wp.seq Wp.any fun c _ => ?_
    exact cmdBackwardDeleteChar_p (h.of)
  · split
    · refine Wp.seq Wp.any fun c _ => ?_
      refine Wp.seq (cmdBackwardDeleteChar_p h) fun p h1 => ?_
      exact selfInsertTail_p h1 _
    · split
      · exact selfInsertTail_p (h.of) _
      · exact selfInsertTail_p h _

theorem cmdKillWholeLine_p {s0 : St} (h : Paces E s0 s) :
    Wp Any (cmdKillWholeLine s) (fun p => Paces E s0 p.1) := by
  unfold cmdKillWholeLine
  dsimp only
  refine Wp.pure ?_
  exact ((h.emit (t := .gotoCol (s.topColumn + 1))).emit (t := .eraseEol)).of

theorem showHistory_p {s0 : St} (h : Paces E s0 s) :
    Wp Any (showHistory E s) (fun p => Paces E s0 p.1) := by
  unfold showHistory
  refine Wp.seq (cmdKillWholeLine_p h) fun p h1 => ?_
  obtain ⟨s1, n⟩ := p
  dsimp only
  refine Wp.seq Wp.any fun t _ => ?_
  split
  · refine Wp.seq (insertString_p h1 _ _) fun p h2 => ?_
    obtain ⟨s2, n⟩ := p
    dsimp only
    refine Wp.seq (cmdEndOfLine_p (s0 := s0) (h2.of)) fun p h3 => ?_
    exact h3
  · exact h1

theorem saveModifiedHistory_p {s0 : St} (h : Paces E s0 s) :
    Wp Any (saveModifiedHistory E s) (Paces E s0) := by
  unfold saveModifiedHistory
  dsimp only
  have last : ∀ b : Bool, Wp Any (if b = true then pure s else
      pure { s with modHist := fun i => if i = s.histPtr then some s.text else s.modHist i } : M St)
      (Paces E s0) := by
    intro b
    cases b
    · exact h.of
    · exact h
  split
  · exact Wp.seq (P := fun _ => True) (Wp.seq Wp.any fun _ _ => trivial) fun b _ => last b
  · exact last false


theorem call_paces_most {c : Cmd} (hb : c.builtin = true) (hq : c ≠ .quotedInsert)
    (hs : c ≠ .isearchBackward) (hbox : ∀ K f l, c = .completion K → K.box = some f → Uttered E (f l)) (s : St) :
    Wp Any (Cmd.call E c s) (fun p => Paces E s p.1) := by
  have h := Paces.refl (E := E) s
  cases c with
  | quotedInsert => exact absurd rfl hq
  | isearchBackward => exact absurd rfl hs
  | custom f => cases hb
  | completion P =>
    show Wp _ (cmdComplete E P s) _
    by_cases hl : s.cursor ≤ s.len
    · rw [cmdComplete_eq hl]
      cases hx : completionOf P.uni P.completer P.postfix_ s.before with
      | crash => trivial
      | nothing => exact h
      | bell l =>
        unfold Outcome.call
        cases hf : P.box with
        | none => exact h.say (.inl rfl)
        | some f =>
          dsimp only
          split
          · exact h.say (.inl rfl)
          · exact Wp.contPaces (repaintAll_s (((h.strews.say uttered_bell).say uttered_lf).say (hbox P f l rfl hf)))
      | insert pos t => exact Wp.contPaces (replaceAndRepaint_p h _ _)
    · rw [cmdComplete_beyond hl]
      trivial
  | acceptLine => exact h
  | interrupt => exact h.of
  | beginningOfLine => exact Wp.contPaces (repaint_p (h.of))
  | backwardChar =>
    simp only [Cmd.call, cmdBackwardChar]
    split
    · exact h
    · exact Wp.contPaces (repaint_p (h.of))
  | endOfLine => exact cmdEndOfLine_p h
  | forwardChar => exact cmdForwardChar_p h
  | backwardDeleteChar => exact cmdBackwardDeleteChar_p h
  | deleteChar => exact cmdDeleteChar_p h
  | deleteOrAbort =>
    simp only [Cmd.call, cmdDeleteOrAbort]
    split
    · exact cmdDeleteChar_p h
    · exact h
  | killLine =>
    simp only [Cmd.call, cmdKillLine]
    refine Wp.seq Wp.any fun _ _ => ?_
    refine Wp.seq Wp.any fun _ _ => ?_
    refine Wp.seq Wp.any fun _ _ => ?_
    exact (h.emit (t := .eraseEol)).of
  | killWholeLine => exact cmdKillWholeLine_p h
  | unixWordRubout =>
    simp only [Cmd.call, cmdUnixWordRubout]
    refine Wp.seq Wp.any fun _ _ => ?_
    refine Wp.seq Wp.any fun _ _ => ?_
    refine Wp.seq Wp.any fun _ _ => ?_
    refine Wp.seq (deleteCells_p (s0 := s) (h.of) _ _) fun p h1 => ?_
    refine Wp.contPaces (repaint_p ?_)
    split
    · exact h1.of
    · exact h1.of
  | unixLineDiscard =>
    simp only [Cmd.call, cmdUnixLineDiscard]
    refine Wp.seq Wp.any fun _ _ => ?_
    refine Wp.seq (deleteCells_p (s0 := s) (h.of) _ _) fun p h1 => ?_
    exact Wp.contPaces (repaint_p (h1.of))
  | clearScreen => exact Wp.contPaces (repaintAll_s (h.strews.say (.inr (.inr (.inr (.inr (.inr (.inl rfl))))))))
  | repaintOnNewline => exact Wp.contPaces (repaintAll_s (h.strews.say uttered_lf))
  | yank =>
    simp only [Cmd.call, cmdYank]
    cases s.clip with
    | none => exact h
    | some t => exact Wp.contPaces (replaceAndRepaint_p h _ _)
  | yankWithQuote =>
    simp only [Cmd.call, cmdYankWithQuote]
    cases s.clip with
    | none => exact h
    | some t => exact Wp.contPaces (replaceAndRepaint_p h _ _)
  | swapChar =>
    simp only [Cmd.call, cmdSwapChar]
    split
    · split
      · exact h
      · refine Wp.seq Wp.any fun _ _ => ?_
        exact Wp.contPaces (puts_p (Paces.emit (h.of)) _ _)
    · split
      · exact h
      · refine Wp.seq Wp.any fun _ _ => ?_
        refine Wp.seq Wp.any fun _ _ => ?_
        refine Wp.contPaces (puts_p ?_ _ _)
        split
        · exact (h.emit (t := .gotoCol (s.topColumn + 1))).of
        · exact (h.emit (t := .gotoCol (s.topColumn + 1))).of
  | backwardWord =>
    simp only [Cmd.call, cmdBackwardWord]
    refine Wp.seq Wp.any fun _ _ => ?_
    refine Wp.contPaces (repaint_p ?_)
    split
    · exact h.of
    · exact h.of
  | forwardWord =>
    simp only [Cmd.call, cmdForwardWord]
    refine Wp.seq Wp.any fun _ _ => ?_
    refine Wp.seq Wp.any fun _ _ => ?_
    split
    · refine Wp.seq (puts_p h _ _) fun s1 h1 => ?_
      exact h1.of
    · exact Wp.contPaces (repaint_p (h.of))
  | undo =>
    simp only [Cmd.call, cmdUndo]
    cases s.undoes with
    | nil => exact h.say (.inl rfl)
    | cons u rest =>
      dsimp only
      have hg : ∀ r b, Paces E s { gotoHead { s with undoes := r } with buf := b } := fun r b =>
        (h.emit (t := .gotoCol (s.topColumn + 1))).of
      have last : ∀ b1 : List Cell, Wp Any (do
          let s2 ← (if u.text ≠ [] then do
              let cells := mojis2cells (stringToMoji E.cfg u.text)
              let b2 ← bufInsert { gotoHead { s with undoes := rest } with buf := b1 } u.pos cells
              pure { gotoHead { s with undoes := rest } with buf := b2, cursor := u.pos + cells.length }
            else pure { gotoHead { s with undoes := rest } with buf := b1, cursor := u.pos } : M St)
          let s2 ← repaint E (resetViewStart E s2)
          pure (s2, Result.cont)) (fun p => Paces E s p.1) := by
        intro b1
        have fin : ∀ s2, Paces E s s2 → Wp Any (do
            let s2 ← repaint E (resetViewStart E s2)
            pure (s2, Result.cont)) (fun p => Paces E s p.1) :=
          fun s2 h2 => Wp.contPaces (repaint_p (h2.of))
        split
        · refine Wp.seq (P := Paces E s) ?_ fin
          refine Wp.seq Wp.any fun b2 _ => ?_
          exact (hg rest b2).of
        · exact Wp.seq (P := Paces E s) ((hg rest b1).of) fin
      split
      · exact Wp.seq Wp.any fun b1 _ => last b1
      · exact last _
  | previousHistory =>
    simp only [Cmd.call, cmdPreviousHistory]
    split
    · exact h
    · split
      · exact h
      · refine Wp.seq (saveModifiedHistory_p (s0 := s) ?_) fun s1 h1 => showHistory_p (h1.of)
        split
        · exact h.of
        · exact h
  | nextHistory =>
    simp only [Cmd.call, cmdNextHistory]
    split
    · exact h
    · split
      · exact h
      · exact Wp.seq (saveModifiedHistory_p h) fun s1 h1 => showHistory_p (h1.of)
  | selfInsert k => exact cmdSelfInsert_p h k


theorem getKey_p {s0 : St} {k : Option Bytes} {s' : St} (h : Paces E s0 s) (hg : getKey s = (k, s')) :
    Paces E s0 s' := by
  obtain ⟨rest, e⟩ := getKey_state hg
  rw [e]
  exact (h.emit (t := .await)).of

theorem cmdQuotedInsert_p (s : St) : Wp Any (cmdQuotedInsert E s) (fun p => Paces E s p.1) := by
  unfold cmdQuotedInsert
  dsimp only
  have h0 : Paces E s (s.emit .cursorOn) := (Paces.refl s).emit
  generalize hg : getKey (s.emit .cursorOn) = g
  obtain ⟨k, s1⟩ := g
  have h := getKey_p h0 hg
  cases k with
  | none => exact h.emit
  | some k =>
    dsimp only
    refine Wp.seq (cmdSelfInsert_p h k) fun p h1 => ?_
    exact Wp.pure (h1.emit)

theorem isearchLoop_p {s0 : St} (n : Nat) (it : ISt) (s : St) (h0 : Paces E s0 s) :
    Wp Any (isearchLoop E n it s) (fun p => Paces E s0 p.1) := by
  induction n generalizing it s with
  | zero => trivial
  | succ n ih =>
    unfold isearchLoop
    refine Wp.seq (drawLoop_p _ _ h0) fun s1 h1 => ?_
    dsimp only
    have h2 : Paces E s0 ((eraseline s1).emit .cursorOn) := (h1.emit (t := .eraseEol)).emit
    generalize hg : getKey ((eraseline s1).emit .cursorOn) = g
    obtain ⟨ok, s2⟩ := g
    have h2 := getKey_p h2 hg
    cases ok with
    | none => exact h2
    | some key =>
      dsimp only
      have h3 : Paces E s0 (gotoHead (s2.emit .cursorOff)) :=
        (h2.emit (t := .cursorOff)).emit (t := .gotoCol ((s2.emit .cursorOff).topColumn + 1))
      generalize gotoHead (s2.emit .cursorOff) = s3 at *
      split
      · exact ih _ _ h3
      · split
        · exact Wp.contPaces (replaceAndRepaint_p (h3.of) _ _)
        · split
          · refine Wp.seq Wp.any fun p _ => ?_
            refine Wp.seq (puts_p h3 _ _) fun s4 h4 => ?_
            refine Wp.contPaces (puts_p ?_ _ _)
            exact (h4.emit (t := .eraseEol)).emit (t := .gotoCol ((s4.emit .eraseEol).topColumn + 1))
          · split
            · exact Wp.seq Wp.any fun it' _ => ih _ _ h3
            · split
              · exact Wp.seq Wp.any fun it' _ => ih _ _ h3
              · split
                · exact ih _ _ h3
                · exact ih _ _ h3

/-- Every built-in command. -/
theorem call_p {c : Cmd} (hb : c.builtin = true) (hbox : ∀ K f l, c = .completion K → K.box = some f → Uttered E (f l)) (s : St) :
    Wp Any (Cmd.call E c s) (fun p => Paces E s p.1) := by
  by_cases hq : c = .quotedInsert
  · subst hq; exact cmdQuotedInsert_p s
  · by_cases hs : c = .isearchBackward
    · subst hs
      exact isearchLoop_p _ _ _ ((Paces.refl s).emit (t := .gotoCol (s.topColumn + 1)))
    · exact call_paces_most hb hq hs hbox s

theorem finish_p {s0 : St} (h : Paces E s0 s) (rc : Result) :
    Wp Any (finish E s rc) (fun p => Paces E s0 p.1) := by
  unfold finish
  have last : ∀ s1, Paces E s0 s1 → Wp Any (do
      let s1 := match E.lineFeed with
        | some f => s1.emit (.lit (f rc))
        | none => s1.emit (.lit [0x0A])
      let s1 := s1.emit .flush
      let text := s1.text
      let err := match rc with
        | .enter => RLErr.nil
        | .intr => .ctrlC
        | _ => .eof
      return (deferred s1, ({ text := text, err := err } : RLRes)) : M (St × RLRes))
      (fun p => Paces E s0 p.1) := by
    intro s1 h1
    refine Wp.pure ?_
    refine Paces.emit (t := .flush) (Paces.emit (t := .cursorOn) (Paces.emit (t := .flush) ?_))
    cases hf : E.lineFeed with
    | none => exact h1.say (.inr (.inl rfl))
    | some f => exact h1.say (.inr (.inr ⟨f, rc, hf, rfl⟩))
  cases s.suffix with
  | none => exact last s h
  | some x => exact Wp.seq (repaintNoSuffix_p (h.of)) last

theorem step_p (hb : ∀ k, (lookupCommand E k).builtin = true) (s : St) :
    Wp Any (step E s) (fun p => Paces E s p.1) := by
  unfold step
  have h := Paces.refl (E := E) s
  cases hi : s.input with
  | nil => exact Paces.emit (t := .flush) (Paces.emit (t := .cursorOn) (Paces.emit (t := .await) h))
  | cons ev rest =>
    cases ev with
    | err x =>
      exact Paces.emit (t := .flush) (Paces.emit (t := .cursorOn) (Paces.of (Paces.emit (t := .await) h)))
    | resize w =>
      dsimp only
      refine Wp.seq (P := Paces E s) ?_ fun s1 h1 => h1
      unfold onResize
      exact repaintLastLine_p (h.of)
    | key k =>
      dsimp only
      unfold execCmd
      have h0 : Paces E s (({ s.emit .await with input := rest }).emit .cursorOff) :=
        Paces.emit (Paces.of (Paces.emit (t := .await) h))
      refine Wp.seq (call_p (hb k) (fun K f l hc hf => .inr (.inr (.inr (.inr (.inr (.inr ⟨k, K, f, l, hc, hf, rfl⟩)))))) _) fun p h1 => ?_
      obtain ⟨s1, rc⟩ := p
      have h2 : Paces E s (s1.emit .cursorOn) := (h0.trans h1).emit
      have fin : Wp Any (do
          let p ← finish E (s1.emit .cursorOn) rc
          return (p.1, some p.2)) (fun p => Paces E s p.1) :=
        Wp.seq (finish_p h2 rc) fun p h3 => h3
      cases rc
      · exact h2
      · exact fin
      · exact fin
      · exact fin

theorem prompt_s (w : World) : Strews E ({ out := w.out } : St) (promptSt E w) := by
  unfold promptSt
  dsimp only
  generalize hs : ({ cursor := w.cursor, clip := w.clip, termWidth := w.termWidth, input := w.input, out := w.out, promptN := w.promptN, histPtr := E.histLen } : St) = s0
  have h0 : Strews E ({ out := w.out } : St) s0 := by rw [← hs]; exact (Paces.refl _).strews.of
  have h := callPromptWriter_s h0
  cases he : E.promptErr with
  | some e => exact (h.say (.inr (.inl ⟨e, he, rfl⟩))).of
  | none =>
    dsimp only
    split
    · exact (h.say uttered_lf).of
    · exact h.of

/-- The output of a session, up to a state in which a key is awaited. -/
theorem session_paced (hb : BuiltinKeys E) (hK : Colourful E.coloring) {w : World} (h : Reachable E w s) :
    ∃ a b c, s.out = w.out ++ (a ++ b ++ c) ∧ Strewn E a ∧ Lined E b ∧ Paced E c := by
  induction h with
  | @start s h =>
    unfold startSt at h
    obtain ⟨⟨s1, n⟩, h1, h⟩ := bind_ok.mp h
    have p1 : Strews E ({ out := w.out } : St) s1 :=
      (prompt_s w).trans (Paces.strews ((insertString_p (.refl _) _ _).ok h1))
    obtain ⟨s2, h2, h⟩ := bind_ok.mp h
    cases pure_ok.mp h
    obtain ⟨b, c, e, hp, hl⟩ := repaintNoSuffix_lined (s0 := ({ out := w.out } : St)) hK (updateSuffix_s (p1.of (by split <;> rfl))) h2
    exact ⟨b, c, [.cursorOn], by show s2.out ++ _ = _; rw [e]; simp only [List.append_assoc], hp, hl, .wordless _ rfl⟩
  | @step s s' _ hs ih =>
    obtain ⟨a, b, c, e, h1, h2, h3⟩ := ih
    obtain ⟨d, e', h4⟩ := (step_p (BuiltinKeys.builtin hb) s).ok hs hK
    have e' : s'.out = s.out ++ d := e'
    exact ⟨a, b, c ++ d, by rw [e', e]; simp only [List.append_assoc], h1, h2, h3.append h4⟩

/-- The output of a call. -/
theorem result_paced (hb : BuiltinKeys E) (hK : Colourful E.coloring) {w : World} {p : St × RLRes} (h : readLine E w = .ok p) :
    ∃ a b c, p.1.out = w.out ++ (a ++ b ++ c) ∧ Strewn E a ∧ Lined E b ∧ Paced E c := by
  obtain ⟨t, hr, hs⟩ := readLine_reachable h
  obtain ⟨a, b, c, e, h1, h2, h3⟩ := session_paced hb hK hr
  obtain ⟨d, e', h4⟩ := (step_p (BuiltinKeys.builtin hb) t).ok hs hK
  have e' : p.1.out = t.out ++ d := e'
  exact ⟨a, b, c ++ d, by rw [e', e]; simp only [List.append_assoc], h1, h2, h3.append h4⟩

end
end Readline
