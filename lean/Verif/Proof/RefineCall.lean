import Verif.Proof.Completion
import Verif.Proof.Refine
/-!
# Every built-in command refines the command without a screen
-/
namespace Readline

/-- A command of the package itself (not one supplied by the user). -/
def Cmd.builtin : Cmd → Bool
  | .custom _ => false
  | _ => true

theorem widthBetween_ok {E : Env} {s : St} {lo hi w : Int} (h : widthBetween E s lo hi = .ok w) :
    0 ≤ lo ∧ lo ≤ hi ∧ hi ≤ s.len ∧
    w = cellsWidth E.cfg ((s.buf.take hi.toNat).drop lo.toNat) := by
  unfold widthBetween at h
  obtain ⟨cs, h1, h⟩ := bind_ok.mp h
  obtain ⟨a, b, c, rfl⟩ := slice_ok h1
  simp only [pure_ok] at h
  exact ⟨a, b, c, h.symm⟩

theorem subString_ok {s : St} {lo hi : Int} {t : Bytes} (h : subString s lo hi = .ok t) :
    0 ≤ lo ∧ lo ≤ hi ∧ hi ≤ s.len ∧ t = lineText ((s.line.take hi.toNat).drop lo.toNat) := by
  unfold subString at h
  obtain ⟨cs, h1, h⟩ := bind_ok.mp h
  obtain ⟨a, b, c, rfl⟩ := slice_ok h1
  simp only [pure_ok] at h
  refine ⟨a, b, c, ?_⟩
  rw [← h, cell2string_eq, List.map_drop, List.map_take]
  rfl

theorem forwardChar_ed {E : Env} {s : St} {p : St × Result} (h : cmdForwardChar E s = .ok p) :
    p.1.ed = (Ed.call E.logic .forwardChar s.ed).1 ∧ p.2 = .cont := by
  unfold cmdForwardChar at h
  simp only [Ed.call]
  have hc : s.ed.cursor = s.cursor := rfl
  have hs : s.ed.suffixList = s.suffixList := rfl
  rw [ed_len, hc, hs]
  split at h
  case isTrue h1 =>
    rw [if_pos h1]
    split at h
    case isTrue h2 =>
      rw [if_pos h2]
      obtain ⟨s1, h3, h⟩ := bind_ok.mp h
      simp only [pure_ok] at h
      subst h
      exact ⟨insertAndRepaint_ed h3, rfl⟩
    case isFalse h2 =>
      rw [if_neg h2]
      simp only [pure_ok] at h
      subst h
      exact ⟨rfl, rfl⟩
  case isFalse h1 =>
    rw [if_neg h1]
    obtain ⟨w, h2, h⟩ := bind_ok.mp h
    split at h
    case isTrue h3 =>
      obtain ⟨s1, h4, h⟩ := bind_ok.mp h
      simp only [pure_ok] at h
      subst h
      refine ⟨?_, rfl⟩
      have e := (puts_same h4).1.ed
      have ec : s1.cursor = s.cursor := congrArg Ed.cursor e
      show { s1.ed with cursor := s1.cursor + 1 } = _
      rw [e, ec]
    case isFalse h3 =>
      obtain ⟨c, h4, h⟩ := bind_ok.mp h
      obtain ⟨v, h5, h⟩ := bind_ok.mp h
      obtain ⟨s1, h6, h⟩ := bind_ok.mp h
      simp only [pure_ok] at h
      subst h
      refine ⟨?_, rfl⟩
      have e := (puts_same h6).1.ed
      have e' : s1.ed = s.ed := e
      have ec : s1.cursor = s.cursor := congrArg Ed.cursor e'
      show { s1.ed with cursor := s1.cursor + 1 } = _
      rw [e', ec]

theorem delete_cursor (e : Ed) (c p n d : Int) :
    { Ed.delete { e with cursor := c } p n with cursor := d } = { Ed.delete e p n with cursor := d } := by
  unfold Ed.delete Ed.len
  by_cases h : n ≤ 0 ∨ (e.line.length : Int) < p + n
  · rw [if_pos h, if_pos (by exact h)]
  · rw [if_neg h, if_neg (by exact h)]

theorem wordRubout_ed {E : Env} {s : St} {p : St × Result} (h : cmdUnixWordRubout E s = .ok p) :
    p.1.ed = Ed.wordRubout E.logic s.ed ∧ p.2 = .cont := by
  unfold cmdUnixWordRubout at h
  obtain ⟨u, h0, h⟩ := bind_ok.mp h
  obtain ⟨hc0, hcl⟩ := checkCursor_ok h0
  obtain ⟨new, h1, h⟩ := bind_ok.mp h
  obtain ⟨t, h2, h⟩ := bind_ok.mp h
  obtain ⟨⟨s1, w⟩, h3, h⟩ := bind_ok.mp h
  obtain ⟨s2, h4, h⟩ := bind_ok.mp h
  simp only [pure_ok] at h
  subst h
  refine ⟨?_, rfl⟩
  have hn := (currentWordTop_ok h1).2.2
  have ht := (subString_ok h2).2.2.2
  have e3 := (deleteCells_ok h3).1
  have hcl' : s.cursor.toNat ≤ s.buf.length := by unfold St.len at hcl; omega
  rw [skipSpacesLeft_eq _ _ hcl'] at *
  simp only at e3 hn ht
  show s2.ed = _
  rw [repaint_ed h4]
  unfold Ed.wordRubout
  have hx : Ed.wordTop E.logic s.line (Ed.skipSpaces s.line s.cursor.toNat) = new := hn.symm
  have hy : s.ed.line = s.line := rfl
  have hz : s.ed.cursor = s.cursor := rfl
  simp only [hy, hz, hx]
  have ht' : lineText (List.drop new.toNat (List.take s.cursor.toNat s.line)) = t := by rw [ht]; rfl
  rw [ht']
  congr 1
  have key : ({ s1 with cursor := new } : St).ed = { s1.ed with cursor := new } := rfl
  have goal := delete_cursor { s.ed with clip := E.clipSet s.clip t }
    (Ed.skipSpaces s.line s.cursor.toNat) new (s.cursor - new) new
  split
  · rw [resetViewStart_ed, key, e3]; exact goal
  · rw [key, e3]; exact goal

theorem unixLineDiscard_ed {E : Env} {s : St} {p : St × Result}
    (h : cmdUnixLineDiscard E s = .ok p) :
    p.1.ed = (Ed.call E.logic .unixLineDiscard s.ed).1 ∧ p.2 = .cont := by
  unfold cmdUnixLineDiscard at h
  obtain ⟨t, h2, h⟩ := bind_ok.mp h
  obtain ⟨⟨s1, w⟩, h3, h⟩ := bind_ok.mp h
  obtain ⟨s2, h4, h⟩ := bind_ok.mp h
  simp only [pure_ok] at h
  subst h
  refine ⟨?_, rfl⟩
  have ht := (subString_ok h2).2.2.2
  have e3 := (deleteCells_ok h3).1
  simp only at e3
  simp only [Ed.call]
  rw [repaint_ed h4]
  congr 1
  have ht' : lineText (List.take s.ed.cursor.toNat s.ed.line) = t := by rw [ht]; rfl
  rw [ht']
  show { s1.ed with cursor := 0 } = _
  rw [e3]
  rfl

theorem killLine_ed {E : Env} {s : St} {p : St × Result} (h : cmdKillLine E s = .ok p) :
    p.1.ed = Ed.killLine E.logic s.ed ∧ p.2 = .cont := by
  unfold cmdKillLine at h
  obtain ⟨t, h1, h⟩ := bind_ok.mp h
  obtain ⟨tail, h2, h⟩ := bind_ok.mp h
  obtain ⟨head, h3, h⟩ := bind_ok.mp h
  simp only [pure_ok] at h
  subst h
  refine ⟨?_, rfl⟩
  have ht := (subString_ok h1).2.2.2
  have hlen : s.len.toNat = s.line.length := by rw [St.len_eq]; simp
  rw [hlen, List.take_length] at ht
  obtain ⟨_, _, _, ht2⟩ := slice_ok h2
  obtain ⟨_, _, _, ht3⟩ := slice_ok h3
  have e2 : cell2string tail = t := by
    rw [ht, ht2, cell2string_eq]
    have : (eraseline { s with clip := E.clipSet s.clip t }).len.toNat = s.buf.length := by
      simp [eraseline, St.len, St.emit]
    rw [this]
    show lineText (List.map _ (List.drop s.cursor.toNat (List.take s.buf.length s.buf))) = _
    rw [List.take_length, List.map_drop]
    rfl
  have e3 : head.map (fun c => c.moji.norm) = s.line.take s.cursor.toNat := by
    rw [ht3]
    simp only [Int.toNat_zero, List.drop_zero, List.map_take]
    rfl
  have ht' : lineText (List.drop s.ed.cursor.toNat s.ed.line) = t := ht.symm
  simp only [Ed.killLine, ht']
  simp only [St.ed, St.line, eraseline, St.emit, e2] at e3 ⊢
  simp only [e3, Env.logic]

theorem swapAt_map (f : α → β) (l : List α) (i : Nat) : (swapAt l i).map f = swapAt (l.map f) i := by
  unfold swapAt
  simp only [List.getElem?_map]
  cases h1 : l[i]? with
  | none => simp
  | some a =>
    cases h2 : l[i + 1]? with
    | none => simp
    | some b => simp [List.map_set]

theorem swapChar_ed {E : Env} {s : St} {p : St × Result} (h : cmdSwapChar E s = .ok p) :
    p.1.ed = Ed.swap s.ed ∧ p.2 = .cont := by
  unfold cmdSwapChar at h
  unfold Ed.swap
  have hz : s.ed.cursor = s.cursor := rfl
  rw [ed_len, hz]
  split at h
  case isTrue h1 =>
    rw [if_pos h1]
    split at h
    case isTrue h2 =>
      rw [if_pos h2]
      simp only [pure_ok] at h
      subst h; exact ⟨rfl, rfl⟩
    case isFalse h2 =>
      rw [if_neg h2]
      try dsimp only at h
      obtain ⟨two, h3, h⟩ := bind_ok.mp h
      obtain ⟨s1, h4, h⟩ := bind_ok.mp h
      simp only [pure_ok] at h
      subst h
      refine ⟨?_, rfl⟩
      obtain ⟨_, _, h5, rfl⟩ := slice_ok h3
      simp only
      rw [(puts_same h4).1.ed]
      have hcl : s.cursor.toNat = s.buf.length := by unfold St.len at h1; omega
      simp only [St.ed, St.line, gotoHead, St.emit, swapAt_map, cell2string_eq, hcl, List.take_length,
        List.map_drop]
  case isFalse h1 =>
    rw [if_neg h1]
    split at h
    case isTrue h2 =>
      rw [if_pos h2]
      simp only [pure_ok] at h
      subst h; exact ⟨rfl, rfl⟩
    case isFalse h2 =>
      rw [if_neg h2]
      try dsimp only at h
      obtain ⟨two, h3, h⟩ := bind_ok.mp h
      obtain ⟨w, h4, h⟩ := bind_ok.mp h
      obtain ⟨s1, h5, h⟩ := bind_ok.mp h
      simp only [pure_ok] at h
      subst h
      refine ⟨?_, rfl⟩
      obtain ⟨_, _, h6, rfl⟩ := slice_ok h3
      simp only
      rw [(puts_same h5).1.ed]
      have h7 : (s.cursor + 1).toNat - (s.cursor - 1).toNat = 2 := by omega
      split <;>
      simp only [St.ed, St.line, gotoHead, St.emit, swapAt_map, cell2string_eq, List.drop_take, h7,
        List.map_drop, List.map_take]

theorem undo_ed {E : Env} {s : St} {p : St × Result} (h : cmdUndo E s = .ok p) :
    p.1.ed = Ed.undo E.logic s.ed ∧ p.2 = .cont := by
  unfold cmdUndo at h
  unfold Ed.undo
  have hz : s.ed.undoes = s.undoes := rfl
  rw [hz]
  cases hu : s.undoes with
  | nil =>
    rw [hu] at h
    simp only [pure_ok] at h
    subst h
    exact ⟨rfl, rfl⟩
  | cons u rest =>
    rw [hu] at h
    dsimp only at h ⊢
    obtain ⟨b1, h1, h⟩ := bind_ok.mp h
    obtain ⟨s2, h2, h⟩ := bind_ok.mp h
    obtain ⟨s3, h3, h⟩ := bind_ok.mp h
    simp only [pure_ok] at h
    subst h
    refine ⟨?_, rfl⟩
    simp only
    rw [repaint_ed h3, resetViewStart_ed]
    congr 1
    have hb1 : b1.map (fun c => c.moji.norm) =
        (if u.del > 0 then s.line.take u.pos.toNat ++ s.line.drop (u.pos.toNat + u.del)
          else s.line) := by
      split at h1
      · rename_i hd
        rw [if_pos hd]
        unfold bufDelete at h1
        split at h1
        · rename_i hb
          cases h1
          have : u.pos.toNat + u.del ≤ s.buf.length := by
            have := hb.2
            have : (gotoHead { s with undoes := rest }).len = s.buf.length := rfl
            omega
          have hbuf : (gotoHead { s with undoes := rest }).buf = s.buf := rfl
          rw [hbuf, sliceDelete_eq _ _ _ this]
          simp [St.line, List.map_take, List.map_drop]
        · cases h1
      · rename_i hd
        rw [if_neg hd]
        simp only [pure_ok] at h1
        rw [← h1]; rfl
    have hl : s.ed.line = s.line := rfl
    rw [hl, ← hb1]
    split at h2
    · rename_i ht
      rw [if_pos ht]
      obtain ⟨b2, h4, h2⟩ := bind_ok.mp h2
      simp only [pure_ok] at h2
      subst h2
      unfold bufInsert at h4
      split at h4
      · rename_i hb
        cases h4
        have : u.pos.toNat ≤ b1.length := by
          have := hb.2
          unfold St.len at this
          simp only at this
          omega
        rw [sliceInsert_eq _ _ _ this]
        have hcfg : E.logic.cfg = E.cfg := rfl
        simp [St.ed, St.line, gotoHead, St.emit, mojis2cells_norm, segs, mojis2cells_length, hcfg,
          List.map_take, List.map_drop]
      · cases h4
    · rename_i ht
      rw [if_neg ht]
      simp only [pure_ok] at h2
      subst h2
      rfl

theorem backwardWord_ed {E : Env} {s : St} {p : St × Result} (h : cmdBackwardWord E s = .ok p) :
    p.1.ed = (Ed.call E.logic .backwardWord s.ed).1 ∧ p.2 = .cont := by
  unfold cmdBackwardWord at h
  obtain ⟨u, h0, h⟩ := bind_ok.mp h
  obtain ⟨hc0, hcl⟩ := checkCursor_ok h0
  obtain ⟨s1, h1, h⟩ := bind_ok.mp h
  simp only [pure_ok] at h
  subst h
  refine ⟨?_, rfl⟩
  have hcl' : s.cursor.toNat ≤ s.buf.length := by unfold St.len at hcl; omega
  have hs := skipSpaces_le (s.buf.map (fun c => c.moji.norm)) s.cursor.toNat
  rw [skipSpacesLeft_eq _ _ hcl', skipWordLeft_eq _ _ (by omega)] at h1
  simp only
  rw [repaint_ed h1]
  simp only [Ed.call]
  congr 1
  split <;> rfl

theorem forwardWord_ed {E : Env} {s : St} {p : St × Result} (h : cmdForwardWord E s = .ok p) :
    (p.1.ed = (Ed.call E.logic .forwardWord s.ed).1 ∨
      p.1.ed = Ed.predict E.logic (Ed.call E.logic .forwardWord s.ed).1) ∧ p.2 = .cont := by
  unfold cmdForwardWord at h
  obtain ⟨u, h0, h⟩ := bind_ok.mp h
  obtain ⟨hc0, hcl⟩ := checkCursor_ok h0
  have hcl' : s.cursor.toNat ≤ s.buf.length := by unfold St.len at hcl; omega
  rw [forwardWordPos_eq _ _ hcl'] at h
  obtain ⟨w, h1, h⟩ := bind_ok.mp h
  split at h
  · obtain ⟨s1, h2, h⟩ := bind_ok.mp h
    simp only [pure_ok] at h
    subst h
    refine ⟨Or.inl ?_, rfl⟩
    have e := (puts_same h2).1.ed
    simp only [Ed.call]
    show { s1.ed with
      cursor := ((Ed.forwardPos (List.map (fun c : Cell => c.moji.norm) s.buf) s.cursor.toNat : Nat) : Int) } = _
    rw [e]
    rfl
  · obtain ⟨s1, h2, h⟩ := bind_ok.mp h
    simp only [pure_ok] at h
    subst h
    refine ⟨Or.inr ?_, rfl⟩
    simp only [Ed.call]
    rw [repaint_ed h2, resetViewStart_ed]
    rfl

theorem St.before_ed (s : St) : (s.ed.line.take s.ed.cursor.toNat).map Moji.write = s.before := by
  show ((s.buf.map (fun c : Cell => c.moji.norm)).take s.cursor.toNat).map Moji.write = _
  unfold St.before
  rw [← List.map_take, List.map_map]
  apply List.map_congr_left
  intro c _
  exact Moji.norm_write c.moji

theorem complete_ed {E : Env} {P : Completing} {s : St} {p : St × Result} (h : cmdComplete E P s = .ok p) :
    p.1.ed = (Ed.complete E.logic P s.ed) ∧ p.2 = .cont := by
  by_cases hc : s.cursor ≤ s.len
  · rw [cmdComplete_eq hc] at h
    unfold Ed.complete
    rw [s.before_ed]
    cases hx : Spec.completionOf P.uni P.completer P.postfix_ s.before with
    | crash => rw [hx] at h; cases h
    | nothing => rw [hx] at h; cases h; exact ⟨rfl, rfl⟩
    | bell l =>
      rw [hx] at h
      dsimp only [Spec.Outcome.call] at h ⊢
      cases hb : P.box with
      | none => rw [hb] at h; cases h; exact ⟨rfl, rfl⟩
      | some box =>
        rw [hb] at h
        dsimp only at h
        by_cases hl : l = []
        · rw [if_pos hl] at h
          cases h
          subst hl
          exact ⟨rfl, rfl⟩
        · rw [if_neg hl] at h
          obtain ⟨s1, h1, h⟩ := bind_ok.mp h
          cases pure_ok.mp h
          refine ⟨?_, rfl⟩
          rw [if_pos (by simp [hl])]
          have := repaintAll_ed h1
          exact this
    | insert pos t =>
      rw [hx] at h
      obtain ⟨s1, h1, h⟩ := bind_ok.mp h
      cases pure_ok.mp h
      exact ⟨replaceAndRepaint_ed h1, rfl⟩
  · rw [cmdComplete_beyond hc] at h
    cases h

/-- What a completion command may do to the line. -/
theorem Ed.complete_cases (L : Logic) (P : Completing) (e : Ed) :
    Ed.complete L P e = e ∨ Ed.complete L P e = Ed.predict L e ∨
      ∃ (pos : Nat) (t : Bytes), (pos : Int) < e.cursor ∧ pos < e.line.length ∧
        Ed.complete L P e = Ed.replace L e pos t := by
  unfold Ed.complete
  cases hx : Spec.completionOf P.uni P.completer P.postfix_ ((e.line.take e.cursor.toNat).map Moji.write) with
  | crash | nothing => exact Or.inl rfl
  | bell l =>
    dsimp only
    split
    · exact Or.inr (Or.inl rfl)
    · exact Or.inl rfl
  | insert pos t =>
    have hp := completionOf_pos hx
    simp only [List.length_map, List.length_take] at hp
    exact Or.inr (Or.inr ⟨pos, t, by omega, by omega, rfl⟩)

/-- Refinement: a built-in command that does not panic does what the command without a
screen does (`FORWARD_WORD` computes the prediction anew only if it has to scroll). -/
theorem call_ed {E : Env} {c : Cmd} {s : St} {p : St × Result} (hb : c.builtin = true)
    (h : Cmd.call E c s = .ok p) :
    (p.1.ed = (Ed.call E.logic c s.ed).1 ∨
      (c = .forwardWord ∧ p.1.ed = Ed.predict E.logic (Ed.call E.logic c s.ed).1)) ∧
    p.2 = (Ed.call E.logic c s.ed).2 := by
  cases c with
  | acceptLine => cases h; exact ⟨Or.inl rfl, rfl⟩
  | interrupt => cases h; exact ⟨Or.inl rfl, rfl⟩
  | beginningOfLine =>
    obtain ⟨s1, h1, h⟩ := bind_ok.mp h
    simp only [pure_ok] at h
    subst h
    exact ⟨Or.inl (repaint_ed h1), rfl⟩
  | backwardChar =>
    simp only [Cmd.call, cmdBackwardChar] at h
    simp only [Ed.call]
    have hc : s.ed.cursor = s.cursor := rfl
    rw [hc]
    split at h
    · rename_i hx
      simp only [pure_ok] at h
      subst h
      rw [if_pos hx]
      exact ⟨Or.inl rfl, rfl⟩
    · rename_i hx
      obtain ⟨s1, h1, h⟩ := bind_ok.mp h
      simp only [pure_ok] at h
      subst h
      rw [if_neg hx]
      exact ⟨Or.inl (repaint_ed h1), rfl⟩
  | endOfLine => exact ⟨Or.inl (endOfLine_ed h).1, (endOfLine_ed h).2⟩
  | forwardChar => exact ⟨Or.inl (forwardChar_ed h).1, (forwardChar_ed h).2⟩
  | backwardDeleteChar => exact ⟨Or.inl (backspace_ed h).1, (backspace_ed h).2⟩
  | deleteChar =>
    obtain ⟨⟨s1, w⟩, h1, h⟩ := bind_ok.mp h
    obtain ⟨s2, h2, h⟩ := bind_ok.mp h
    simp only [pure_ok] at h
    subst h
    refine ⟨Or.inl ?_, rfl⟩
    simp only [Ed.call]
    rw [repaint_ed h2, (deleteCells_ok h1).1]
    rfl
  | deleteOrAbort =>
    simp only [Cmd.call, cmdDeleteOrAbort] at h
    simp only [Ed.call, ed_len]
    split at h
    · rename_i hx
      rw [if_pos hx]
      obtain ⟨⟨s1, w⟩, h1, h⟩ := bind_ok.mp h
      obtain ⟨s2, h2, h⟩ := bind_ok.mp h
      simp only [pure_ok] at h
      subst h
      refine ⟨Or.inl ?_, rfl⟩
      simp only
      rw [repaint_ed h2, (deleteCells_ok h1).1]
      rfl
    · rename_i hx
      rw [if_neg hx]
      simp only [pure_ok] at h
      subst h
      exact ⟨Or.inl rfl, rfl⟩
  | killLine => exact ⟨Or.inl (killLine_ed h).1, (killLine_ed h).2⟩
  | killWholeLine =>
    obtain ⟨s1, h1, h2, _⟩ := killWhole_ed s
    simp only [Cmd.call] at h
    rw [h1] at h
    cases h
    exact ⟨Or.inl h2, rfl⟩
  | unixWordRubout => exact ⟨Or.inl (wordRubout_ed h).1, (wordRubout_ed h).2⟩
  | unixLineDiscard => exact ⟨Or.inl (unixLineDiscard_ed h).1, (unixLineDiscard_ed h).2⟩
  | clearScreen =>
    obtain ⟨s1, h1, h⟩ := bind_ok.mp h
    simp only [pure_ok] at h
    subst h
    have e := repaintAll_ed h1
    exact ⟨Or.inl e, rfl⟩
  | repaintOnNewline =>
    obtain ⟨s1, h1, h⟩ := bind_ok.mp h
    simp only [pure_ok] at h
    subst h
    have e := repaintAll_ed h1
    exact ⟨Or.inl e, rfl⟩
  | quotedInsert =>
    simp only [Cmd.call, cmdQuotedInsert] at h
    simp only [Ed.call]
    have ek := (getKey_ed (s.emit .cursorOn)).1
    rw [emit_ed] at ek
    rw [← ek]
    generalize getKey (s.emit .cursorOn) = g at h
    obtain ⟨k, s1⟩ := g
    cases k with
    | none =>
      simp only [pure_ok] at h
      subst h; exact ⟨Or.inl rfl, rfl⟩
    | some key =>
      obtain ⟨⟨s2, r⟩, h1, h⟩ := bind_ok.mp h
      simp only [pure_ok] at h
      subst h
      have := selfInsert_ed h1
      exact ⟨Or.inl this.1, this.2⟩
  | yank =>
    simp only [Cmd.call, cmdYank] at h
    simp only [Ed.call]
    have hc : s.ed.clip = s.clip := rfl
    rw [hc]
    cases hx : s.clip with
    | none =>
      rw [hx] at h
      simp only [pure_ok] at h
      subst h; exact ⟨Or.inl rfl, rfl⟩
    | some t =>
      rw [hx] at h
      obtain ⟨s1, h1, h⟩ := bind_ok.mp h
      simp only [pure_ok] at h
      subst h
      exact ⟨Or.inl (insertAndRepaint_ed h1), rfl⟩
  | yankWithQuote =>
    simp only [Cmd.call, cmdYankWithQuote] at h
    simp only [Ed.call]
    have hc : s.ed.clip = s.clip := rfl
    rw [hc]
    cases hx : s.clip with
    | none =>
      rw [hx] at h
      simp only [pure_ok] at h
      subst h; exact ⟨Or.inl rfl, rfl⟩
    | some t =>
      rw [hx] at h
      obtain ⟨s1, h1, h⟩ := bind_ok.mp h
      simp only [pure_ok] at h
      subst h
      exact ⟨Or.inl (insertAndRepaint_ed h1), rfl⟩
  | swapChar => exact ⟨Or.inl (swapChar_ed h).1, (swapChar_ed h).2⟩
  | backwardWord => exact ⟨Or.inl (backwardWord_ed h).1, (backwardWord_ed h).2⟩
  | forwardWord =>
    have := forwardWord_ed h
    exact ⟨this.1.imp id (fun h => ⟨rfl, h⟩), this.2⟩
  | undo => exact ⟨Or.inl (undo_ed h).1, (undo_ed h).2⟩
  | previousHistory => exact ⟨Or.inl (prevHistory_ed h).1, (prevHistory_ed h).2⟩
  | nextHistory => exact ⟨Or.inl (nextHistory_ed h).1, (nextHistory_ed h).2⟩
  | isearchBackward => exact ⟨Or.inl (isearchLoop_ed h).1, (isearchLoop_ed h).2⟩
  | selfInsert k => exact ⟨Or.inl (selfInsert_ed h).1, (selfInsert_ed h).2⟩
  | completion P => exact ⟨Or.inl (complete_ed h).1, (complete_ed h).2⟩
  | custom f => cases hb

end Readline
