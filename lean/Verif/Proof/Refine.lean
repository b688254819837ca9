import Verif.Spec.Editor
import Verif.Proof.Display
/-!
# The model refines the editor without a screen
-/
namespace Readline

theorem Same.ed {s s' : St} (h : Same s s') : s'.ed = s.ed := by
  obtain ⟨h1, b, o, rfl⟩ := h
  simp only [St.ed, h1]

theorem updateSuffix_ed (E : Env) (s : St) : (updateSuffix E s).ed = Ed.predict E.logic s.ed := by
  unfold updateSuffix Ed.predict
  have h1 : (E.logic.predictOn = false) ↔ E.predictColor.1 = [] := by simp [Env.logic]
  by_cases h : E.predictColor.1 = []
  · rw [if_pos h, if_pos (h1.mpr h)]
  · rw [if_neg h, if_neg (fun h' => h (h1.mp h'))]
    have h2 : (s.ed.line.length = 0) ↔ s.buf.length = 0 := by simp [St.ed, St.line]
    by_cases hl : s.buf.length = 0
    · rw [if_pos hl, if_pos (h2.mpr hl)]
      rfl
    · rw [if_neg hl, if_neg (fun h' => hl (h2.mp h'))]
      simp only [St.ed, St.line, Ed.text, Env.logic, St.text_eq]

theorem repaint_ed {E : Env} {s s' : St} (h : repaint E s = .ok s') :
    s'.ed = Ed.predict E.logic s.ed := by
  rw [(repaint_same h).1.ed, updateSuffix_ed]

theorem emit_ed (s : St) (t : Tok) : (s.emit t).ed = s.ed := rfl
theorem resetViewStart_ed (E : Env) (s : St) : (resetViewStart E s).ed = s.ed := rfl

theorem segs_length (C : Cfg) (t : Bytes) : (segs C t).length = (stringToMoji C t).length := by
  simp [segs]

theorem mojis2cells_norm (ms : List Moji) :
    (mojis2cells ms).map (fun c => c.moji.norm) = ms.map Moji.norm := by
  simp [mojis2cells, Function.comp_def]

theorem mojis2cells_length (ms : List Moji) : (mojis2cells ms).length = ms.length := by
  simp [mojis2cells]

/-- What a successful insertion does. -/
theorem insertString_ok {E : Env} {s : St} {pos : Int} {t : Bytes} {p : St × List Cell}
    (h : insertString E s pos t = .ok p) :
    (0 ≤ pos ∧ pos ≤ s.len) ∧ p.1.ed = Ed.insert E.logic s.ed pos t ∧
    p.2 = mojis2cells (stringToMoji E.cfg t) ∧
    p.2.length = (segs E.cfg t).length ∧ (∃ b u, p.1 = { s with buf := b, undoes := u }) ∧
    p.1.buf = s.buf.take pos.toNat ++ p.2 ++ s.buf.drop pos.toNat := by
  unfold insertString insertCells bufInsert at h
  obtain ⟨s1, h1, h⟩ := bind_ok.mp h
  obtain ⟨b, hb, h1⟩ := bind_ok.mp h1
  split at hb
  case isFalse => cases hb
  case isTrue hc =>
    cases hb; cases h1; cases h
    have hp : pos.toNat ≤ s.buf.length := by have := hc.2; unfold St.len at this; omega
    refine ⟨hc, ?_, rfl, by simp [segs, mojis2cells], ⟨_, _, rfl⟩, ?_⟩
    · simp only [St.ed, St.line, Ed.insert]
      rw [sliceInsert_eq _ _ _ hp]
      simp [List.map_append, mojis2cells_norm, segs, Env.logic, mojis2cells_length, List.map_take,
        List.map_drop]
    · simp only [sliceInsert_eq _ _ _ hp]

/-- What a successful deletion does. -/
theorem deleteCells_ok {E : Env} {s : St} {pos n : Int} {p : St × Int}
    (h : deleteCells E s pos n = .ok p) :
    p.1.ed = Ed.delete s.ed pos n ∧ (∃ b u, p.1 = { s with buf := b, undoes := u }) ∧
    (¬(n ≤ 0 ∨ s.len < pos + n) → 0 ≤ pos) ∧
    p.1.buf = (if n ≤ 0 ∨ s.len < pos + n then s.buf
      else s.buf.take pos.toNat ++ s.buf.drop (pos.toNat + n.toNat)) := by
  unfold deleteCells at h
  split at h
  case isTrue hc =>
    cases h
    refine ⟨?_, ⟨s.buf, s.undoes, rfl⟩, fun h => absurd hc h, by rw [if_pos hc]⟩
    unfold Ed.delete
    rw [if_pos (by simpa [Ed.len, St.ed, St.len_eq] using hc)]
  case isFalse hc =>
    obtain ⟨del, h1, h⟩ := bind_ok.mp h
    obtain ⟨b, h2, h⟩ := bind_ok.mp h
    obtain ⟨hp0, hle, hlen, rfl⟩ := slice_ok h1
    unfold bufDelete at h2
    split at h2
    case isFalse => cases h2
    case isTrue hb =>
      cases h2; cases h
      have hl : pos.toNat + n.toNat ≤ s.buf.length := by omega
      refine ⟨?_, ⟨_, _, rfl⟩, fun _ => hp0, ?_⟩
      · unfold Ed.delete
        rw [if_neg (by simpa [Ed.len, St.ed, St.len_eq] using hc)]
        simp only [St.ed, St.line, sliceDelete_eq _ _ _ hl, cell2string_eq, List.drop_take]
        have h3 : (pos + n).toNat - pos.toNat = n.toNat := by omega
        simp [h3, List.map_append, List.map_take, List.map_drop]
      · rw [if_neg hc]; simp only [sliceDelete_eq _ _ _ hl]

theorem joinUndo_eq (s : St) : joinUndo s = { s with undoes := Ed.joinUndoes s.undoes } := by
  obtain ⟨b, c, sf, v, tw, tc, hp, us, pd, mh, cl, inp, pn, o⟩ := s
  rcases us with _ | ⟨u2, _ | ⟨u1, rest⟩⟩
  · rfl
  · rfl
  · simp only [joinUndo, Ed.joinUndoes]
    split
    · rfl
    · split
      · rfl
      · split <;> rfl

theorem replaceAndRepaint_ed {E : Env} {s s' : St} {pos : Int} {t : Bytes}
    (h : replaceAndRepaint E s pos t = .ok s') : s'.ed = Ed.replace E.logic s.ed pos t := by
  unfold replaceAndRepaint at h
  obtain ⟨⟨s1, w⟩, h1, h⟩ := bind_ok.mp h
  obtain ⟨⟨s2, ins⟩, h2, h⟩ := bind_ok.mp h
  have e1 := (deleteCells_ok h1).1
  obtain ⟨_, e2, _, l2, _⟩ := insertString_ok h2
  simp only at e1 e2 l2
  rw [repaint_ed h, resetViewStart_ed, joinUndo_eq]
  unfold Ed.replace
  have hc : s.cursor = s.ed.cursor := rfl
  simp only
  rw [← hc, ← e1, ← e2, l2]
  rfl

theorem insertAndRepaint_ed {E : Env} {s s' : St} {t : Bytes}
    (h : insertAndRepaint E s t = .ok s') : s'.ed = Ed.replace E.logic s.ed s.cursor t :=
  replaceAndRepaint_ed h

theorem repaintAll_ed {E : Env} {s s' : St} (h : repaintAll E s = .ok s') :
    s'.ed = Ed.predict E.logic s.ed := by
  unfold repaintAll callPromptWriter at h
  cases hp : E.prompt with
  | none =>
    rw [hp] at h
    rw [repaint_ed h]; rfl
  | some f =>
    rw [hp] at h
    rw [repaint_ed h]; rfl

theorem repaintLastLine_ed {E : Env} {s s' : St} (h : repaintLastLine E s = .ok s') :
    s'.ed = Ed.predict E.logic s.ed := by
  unfold repaintLastLine at h
  split at h <;> · rw [repaint_ed h]; rfl

theorem backspace_ed {E : Env} {s : St} {p : St × Result}
    (h : cmdBackwardDeleteChar E s = .ok p) :
    p.1.ed = Ed.backspace E.logic s.ed ∧ p.2 = .cont := by
  unfold cmdBackwardDeleteChar at h
  unfold Ed.backspace
  split at h
  case isTrue hc =>
    rw [if_pos (by exact hc)]
    obtain ⟨⟨s1, w⟩, h1, h⟩ := bind_ok.mp h
    obtain ⟨s2, h2, h⟩ := bind_ok.mp h
    simp only [pure_ok] at h
    subst h
    refine ⟨?_, rfl⟩
    simp only
    rw [repaint_ed h2]
    have e1 := (deleteCells_ok h1).1
    simp only at e1
    congr 1
    split <;> exact e1
  case isFalse hc =>
    rw [if_neg (by exact hc)]
    simp only [pure_ok] at h
    subst h
    exact ⟨rfl, rfl⟩

theorem selfInsertTail_ed {E : Env} {s : St} {t : Bytes} {p : St × Result}
    (h : selfInsertTail E s t = .ok p) : p.1.ed = Ed.typeTail E.logic s.ed t ∧ p.2 = .cont := by
  unfold selfInsertTail at h
  obtain ⟨⟨s1, ins⟩, h1, h⟩ := bind_ok.mp h
  obtain ⟨w, h2, h⟩ := bind_ok.mp h
  obtain ⟨s2, h3, h⟩ := bind_ok.mp h
  simp only [pure_ok] at h
  subst h
  refine ⟨?_, rfl⟩
  obtain ⟨_, e1, _, l1, ⟨b, u, e2⟩, _⟩ := insertString_ok h1
  simp only at e1 l1 e2
  simp only
  rw [repaint_ed h3]
  unfold Ed.typeTail
  congr 1
  have hc : s.cursor = s.ed.cursor := rfl
  rw [← hc, ← e1]
  subst e2
  split <;> · simp only [resetViewStart_ed, l1]; rfl

theorem line_getElem (s : St) (n : Nat) : s.line[n]? = (s.buf[n]?).map (fun c => c.moji.norm) := by
  simp [St.line]

theorem selfInsert_ed {E : Env} {s : St} {key : Bytes} {p : St × Result}
    (h : cmdSelfInsert E key s = .ok p) : p.1.ed = Ed.type E.logic s.ed key ∧ p.2 = .cont := by
  unfold cmdSelfInsert at h
  unfold Ed.type
  have hcfg : E.logic.cfg = E.cfg := rfl
  have hcur : s.ed.cursor = s.cursor := rfl
  have hpend : s.ed.pending = s.pending := rfl
  simp only [hcfg, hcur, hpend]
  try dsimp only at h
  split at h
  case isTrue hc =>
    rw [if_pos hc]
    obtain ⟨c, h1, h⟩ := bind_ok.mp h
    have hx := (index_ok h1).2.2
    have hl : (s.ed.line[(s.cursor - 1).toNat]?).elim [] Moji.write = c.moji.write := by
      show (s.line[(s.cursor - 1).toNat]?).elim [] Moji.write = c.moji.write
      rw [line_getElem, hx]; simp
    rw [hl]
    exact backspace_ed h
  case isFalse hc =>
    rw [if_neg hc]
    split at h
    case isTrue hc2 =>
      rw [if_pos hc2]
      obtain ⟨c, h1, h⟩ := bind_ok.mp h
      obtain ⟨⟨s1, r⟩, h2, h⟩ := bind_ok.mp h
      have hx := (index_ok h1).2.2
      have hl : (s.ed.line[(s.cursor - 1).toNat]?).elim [] Moji.write = c.moji.write := by
        show (s.line[(s.cursor - 1).toNat]?).elim [] Moji.write = c.moji.write
        rw [line_getElem, hx]; simp
      rw [hl, ← (backspace_ed h2).1]
      exact selfInsertTail_ed h
    case isFalse hc2 =>
      rw [if_neg hc2]
      split at h
      case isTrue hc3 =>
        rw [if_pos hc3]
        exact selfInsertTail_ed h
      case isFalse hc3 =>
        rw [if_neg hc3]
        exact selfInsertTail_ed h

/-! ### words -/

theorem skipSpacesLeft_eq (buf : List Cell) (n : Nat) (h : n ≤ buf.length) :
    skipSpacesLeft buf n = Ed.skipSpaces (buf.map (fun c => c.moji.norm)) n := by
  induction n with
  | zero => simp [skipSpacesLeft, Ed.skipSpaces]
  | succ n ih =>
    have hn : n < buf.length := by omega
    rw [skipSpacesLeft, List.getElem?_eq_getElem hn]
    have ht : ((buf.map (fun c => c.moji.norm)).take (n + 1)).reverse
        = buf[n].moji.norm :: ((buf.map (fun c => c.moji.norm)).take n).reverse := by
      rw [List.take_add_one]
      simp [hn]
    simp only
    unfold Ed.skipSpaces
    rw [ht, List.dropWhile_cons]
    simp only [Moji.norm_isSpace]
    split
    · exact ih (by omega)
    · simp; omega

theorem skipWordLeft_eq (buf : List Cell) (n : Nat) (h : n ≤ buf.length) :
    skipWordLeft buf n = Ed.skipWord (buf.map (fun c => c.moji.norm)) n := by
  induction n with
  | zero => simp [skipWordLeft, Ed.skipWord]
  | succ n ih =>
    have hn : n < buf.length := by omega
    rw [skipWordLeft, List.getElem?_eq_getElem hn]
    have ht : ((buf.map (fun c => c.moji.norm)).take (n + 1)).reverse
        = buf[n].moji.norm :: ((buf.map (fun c => c.moji.norm)).take n).reverse := by
      rw [List.take_add_one]
      simp [hn]
    simp only
    unfold Ed.skipWord
    rw [ht, List.dropWhile_cons]
    simp only [Moji.norm_isSpace]
    by_cases hs : buf[n].moji.isSpace = true
    · simp [hs]; omega
    · have hs' : buf[n].moji.isSpace = false := by simpa using hs
      simp only [hs', Bool.not_false, if_true, Bool.false_eq_true, if_false]
      exact ih (by omega)

theorem skipSpaces_le (l : List Moji) (n : Nat) : Ed.skipSpaces l n ≤ n := by
  unfold Ed.skipSpaces
  have := (List.dropWhile_sublist (l := (l.take n).reverse) Moji.isSpace).length_le
  simp at this
  omega

theorem skipWord_le (l : List Moji) (n : Nat) : Ed.skipWord l n ≤ n := by
  unfold Ed.skipWord
  have := (List.dropWhile_sublist (l := (l.take n).reverse) (fun m => !m.isSpace)).length_le
  simp at this
  omega

theorem skipRight_eq (p : Cell → Bool) (cs : List Cell) (n : Nat) :
    skipRight p cs n = n + cs.length - (cs.dropWhile p).length := by
  induction cs generalizing n with
  | nil => simp [skipRight]
  | cons c cs ih =>
    rw [skipRight, List.dropWhile_cons]
    split
    · rw [ih]; simp; omega
    · simp

theorem dropWhile_map_norm (p : Moji → Bool) (hp : ∀ m, p m.norm = p m) (cs : List Cell) :
    (cs.map (fun c => c.moji.norm)).dropWhile p
      = (cs.dropWhile (fun c => p c.moji)).map (fun c => c.moji.norm) := by
  induction cs with
  | nil => rfl
  | cons c cs ih =>
    simp only [List.map_cons, List.dropWhile_cons, hp]
    split
    · exact ih
    · rfl

theorem dropWhile_eq_drop (p : α → Bool) (l : List α) :
    l.dropWhile p = l.drop (l.length - (l.dropWhile p).length) := by
  have h := List.takeWhile_append_dropWhile (p := p) (l := l)
  have hl : l.length - (l.dropWhile p).length = (l.takeWhile p).length := by
    have := congrArg List.length h
    simp only [List.length_append] at this
    omega
  rw [hl]
  have h2 : l.drop (l.takeWhile p).length
      = (l.takeWhile p ++ l.dropWhile p).drop (l.takeWhile p).length := by rw [h]
  rw [h2, List.drop_left]

theorem forwardWordPos_eq (buf : List Cell) (n : Nat) (h : n ≤ buf.length) :
    forwardWordPos buf n = Ed.forwardPos (buf.map (fun c => c.moji.norm)) n := by
  unfold forwardWordPos Ed.forwardPos
  simp only [skipRight_eq]
  rw [← List.map_drop, dropWhile_map_norm (fun m => !m.isSpace) (by simp),
    dropWhile_map_norm Moji.isSpace (by simp)]
  simp only [List.length_map]
  have h1 := (List.dropWhile_sublist (l := buf.drop n) (fun c => !c.moji.isSpace)).length_le
  have hd : (buf.drop n).length = buf.length - n := by simp
  have h2 : buf.drop (n + (buf.drop n).length
        - ((buf.drop n).dropWhile (fun c => !c.moji.isSpace)).length)
      = (buf.drop n).dropWhile (fun c => !c.moji.isSpace) := by
    have e := dropWhile_eq_drop (fun c : Cell => !c.moji.isSpace) (buf.drop n)
    conv => rhs; rw [e, List.drop_drop]
    congr 1
    omega
  rw [h2]
  have h3 := (List.dropWhile_sublist (l := (buf.drop n).dropWhile (fun c => !c.moji.isSpace))
    (fun c => c.moji.isSpace)).length_le
  omega

theorem forwardPos_le (l : List Moji) (n : Nat) : Ed.forwardPos l n ≤ l.length := by
  unfold Ed.forwardPos; omega

theorem wordTopLoop_norm (ds : List Rune) (cs cs' : List Cell)
    (h : cs.map (fun c => c.moji.toRune?) = cs'.map (fun c => c.moji.toRune?)) (i w : Int) (q : Rune) :
    wordTopLoop ds cs i w q = wordTopLoop ds cs' i w q := by
  induction cs generalizing cs' i w q with
  | nil =>
    have : cs' = [] := by simpa using h.symm
    subst this; rfl
  | cons c cs ih =>
    cases cs' with
    | nil => simp at h
    | cons c' cs' =>
      simp only [List.map_cons, List.cons.injEq] at h
      rw [wordTopLoop, wordTopLoop, h.1]
      cases c'.moji.toRune? with
      | none => exact ih cs' h.2 ..
      | some r => exact ih cs' h.2 ..

theorem currentWordTop_ok {E : Env} {s : St} {t : Int} (h : currentWordTop E s = .ok t) :
    0 ≤ s.cursor ∧ s.cursor ≤ s.len ∧ t = Ed.wordTop E.logic s.line s.cursor := by
  unfold currentWordTop at h
  obtain ⟨cs, h1, h⟩ := bind_ok.mp h
  obtain ⟨h2, h3, h4, rfl⟩ := slice_ok h1
  refine ⟨h3, h4, ?_⟩
  simp only [pure_ok] at h
  subst h
  unfold Ed.wordTop
  have : wordTopLoop E.delimiters ((s.buf.take s.cursor.toNat).drop (0 : Int).toNat) 0 (-1) 0
      = wordTopLoop E.delimiters (mojis2cells (s.line.take s.cursor.toNat)) 0 (-1) 0 := by
    apply wordTopLoop_norm
    simp [mojis2cells, St.line, Function.comp_def, List.map_take]
  rw [this]
  rfl

theorem checkCursor_ok {s : St} {u : Unit} (h : checkCursor s = .ok u) :
    0 ≤ s.cursor ∧ s.cursor ≤ s.len := by
  unfold checkCursor at h
  split at h
  · split at h
    · rename_i h1 h2; exact ⟨h1, h2⟩
    · cases h
  · cases h

/-! ### history -/

theorem histAt_ok {E : Env} {s : St} {i : Int} {t : Bytes} (h : histAt E s i = .ok t) :
    0 ≤ i ∧ i < E.histLen ∧ t = Ed.histAt E.logic i := by
  have := index_ok h
  refine ⟨this.1, this.2.1, ?_⟩
  unfold Ed.histAt Env.logic
  simp [List.getD, this.2.2]

theorem saveModifiedHistory_ed {E : Env} {s s' : St} (h : saveModifiedHistory E s = .ok s') :
    s'.ed = Ed.saveHist E.logic s.ed ∧ ∃ m, s' = { s with modHist := m } := by
  unfold saveModifiedHistory at h
  obtain ⟨same, h1, h⟩ := bind_ok.mp h
  have ht : s.ed.text = s.text := (St.text_eq s).symm
  have hp : s.ed.histPtr = s.histPtr := rfl
  have hl : Ed.histLen E.logic = E.histLen := rfl
  have hm : s.ed.modHist = s.modHist := rfl
  unfold Ed.saveHist
  simp only [ht, hp, hl]
  split at h1
  case isTrue hc =>
    obtain ⟨t, h2, h1⟩ := bind_ok.mp h1
    simp only [pure_ok] at h1
    obtain ⟨_, _, rfl⟩ := histAt_ok h2
    subst h1
    split at h
    case isTrue hx =>
      simp only [pure_ok] at h
      subst h
      rw [if_pos ⟨hc, by simpa using hx⟩]
      exact ⟨rfl, _, rfl⟩
    case isFalse hx =>
      simp only [pure_ok] at h
      subst h
      rw [if_neg (fun hh => hx (by simpa using hh.2))]
      exact ⟨rfl, _, rfl⟩
  case isFalse hc =>
    simp only [pure_ok] at h1
    subst h1
    simp only [Bool.false_eq_true, if_false, pure_ok] at h
    subst h
    rw [if_neg (fun hh => hc hh.1)]
    exact ⟨rfl, _, rfl⟩

theorem getHistory_ok {E : Env} {s : St} {t : Bytes} (h : getHistory E s = .ok t) :
    t = Ed.getHist E.logic s.ed := by
  unfold getHistory at h
  unfold Ed.getHist
  have hm : s.ed.modHist s.ed.histPtr = s.modHist s.histPtr := rfl
  rw [hm]
  split at h
  · rename_i t' ht
    cases h
    rw [ht]
  · rename_i ht
    rw [ht]
    simp only
    split at h
    · rename_i hc
      cases h
      rw [if_pos (by exact hc)]
    · rename_i hc
      rw [if_neg (by exact hc)]
      exact (histAt_ok h).2.2

theorem ed_len (s : St) : s.ed.len = s.len := (St.len_eq s).symm

theorem endOfLine_ed {E : Env} {s : St} {p : St × Result} (h : cmdEndOfLine E s = .ok p) :
    p.1.ed = { s.ed with cursor := s.ed.len } ∧ p.2 = .cont := by
  have key : ∀ s1 : St, s1.ed = s.ed →
      (eraseline { s1 with cursor := s1.len }).ed = { s.ed with cursor := s.ed.len } := by
    intro s1 h1
    have e : (eraseline { s1 with cursor := s1.len }).ed = { s1.ed with cursor := s1.len } := rfl
    rw [e, ← ed_len s1, h1]
  unfold cmdEndOfLine at h
  obtain ⟨w, h1, h⟩ := bind_ok.mp h
  split at h
  · obtain ⟨s1, h2, h⟩ := bind_ok.mp h
    simp only [pure_ok] at h
    subst h
    exact ⟨key s1 (puts_same h2).1.ed, rfl⟩
  · obtain ⟨last, h2, h⟩ := bind_ok.mp h
    obtain ⟨s1, h3, h⟩ := bind_ok.mp h
    simp only [pure_ok] at h
    subst h
    exact ⟨key s1 (puts_same h3).1.ed, rfl⟩

theorem killWhole_ed (s : St) : ∃ s', cmdKillWholeLine s = .ok (s', .cont) ∧
    s'.ed = Ed.killWhole s.ed ∧ s'.buf = [] ∧ s'.viewStart = 0 := by
  refine ⟨_, rfl, ?_, rfl, rfl⟩
  simp [St.ed, Ed.killWhole, Ed.text, St.line, gotoHead, eraseline, St.emit, St.text_eq]

theorem showHistory_ed {E : Env} {s : St} {p : St × Result} (h : showHistory E s = .ok p) :
    p.1.ed = Ed.showHist E.logic s.ed ∧ p.2 = .cont := by
  unfold showHistory at h
  obtain ⟨s1, hk, he, hb, hv⟩ := killWhole_ed s
  rw [hk] at h
  obtain ⟨⟨s1', r⟩, h0, h⟩ := bind_ok.mp h
  cases h0
  obtain ⟨t, h1, h⟩ := bind_ok.mp h
  have ht := getHistory_ok h1
  unfold Ed.showHist
  rw [← he]
  dsimp only
  rw [← ht]
  split at h
  case isTrue hc =>
    rw [if_pos hc]
    obtain ⟨⟨s2, ins⟩, h2, h⟩ := bind_ok.mp h
    obtain ⟨⟨s3, r3⟩, h3, h⟩ := bind_ok.mp h
    simp only [pure_ok] at h
    subst h
    refine ⟨?_, rfl⟩
    have e3 := (endOfLine_ed h3).1
    simp only at e3
    simp only
    rw [e3, ← (insertString_ok h2).2.1]
    rfl
  case isFalse hc =>
    rw [if_neg hc]
    simp only [pure_ok] at h
    subst h
    exact ⟨rfl, rfl⟩

theorem prevHistory_ed {E : Env} {s : St} {p : St × Result} (h : cmdPreviousHistory E s = .ok p) :
    p.1.ed = Ed.prevHist E.logic s.ed ∧ p.2 = .cont := by
  unfold cmdPreviousHistory at h
  unfold Ed.prevHist
  have hl : Ed.histLen E.logic = E.histLen := rfl
  have hp : s.ed.histPtr = s.histPtr := rfl
  have hcy : E.logic.historyCycling = E.historyCycling := rfl
  simp only [hl, hp, hcy]
  split at h
  case isTrue hc =>
    rw [if_pos hc]
    simp only [pure_ok] at h
    subst h; exact ⟨rfl, rfl⟩
  case isFalse hc =>
    rw [if_neg hc]
    try dsimp only at h
    split at h
    case isTrue hc2 =>
      rw [if_pos hc2]
      simp only [pure_ok] at h
      subst h; exact ⟨rfl, rfl⟩
    case isFalse hc2 =>
      rw [if_neg hc2]
      try dsimp only at h
      obtain ⟨s1, h1, h⟩ := bind_ok.mp h
      have e1 := (saveModifiedHistory_ed h1).1
      have e2 := showHistory_ed h
      have hx : (if s.histPtr ≤ 0 then { s.ed with histPtr := E.histLen + 1 } else s.ed)
          = (if s.histPtr ≤ 0 then { s with histPtr := E.histLen + 1 } else s).ed := by
        split <;> rfl
      rw [hx, ← e1]
      exact e2

theorem nextHistory_ed {E : Env} {s : St} {p : St × Result} (h : cmdNextHistory E s = .ok p) :
    p.1.ed = Ed.nextHist E.logic s.ed ∧ p.2 = .cont := by
  unfold cmdNextHistory at h
  unfold Ed.nextHist
  have hl : Ed.histLen E.logic = E.histLen := rfl
  have hp : s.ed.histPtr = s.histPtr := rfl
  simp only [hl, hp]
  split at h
  case isTrue hc =>
    rw [if_pos hc]
    simp only [pure_ok] at h
    subst h; exact ⟨rfl, rfl⟩
  case isFalse hc =>
    rw [if_neg hc]
    try dsimp only at h
    split at h
    case isTrue hc2 =>
      rw [if_pos hc2]
      simp only [pure_ok] at h
      subst h; exact ⟨rfl, rfl⟩
    case isFalse hc2 =>
      rw [if_neg hc2]
      try dsimp only at h
      obtain ⟨s1, h1, h⟩ := bind_ok.mp h
      have e1 := (saveModifiedHistory_ed h1).1
      have e2 := showHistory_ed h
      rw [← e1]
      exact e2

/-! ### incremental search -/

theorem getKey_ed (s : St) :
    ((getKey s).1, (getKey s).2.ed) = Ed.getKey s.ed ∧ Same s { (getKey s).2 with input := s.input } := by
  unfold getKey Ed.getKey
  have h1 : (s.emit .await).input = s.input := rfl
  have h2 : s.ed.input = s.input := rfl
  simp only [h1, h2]
  rcases popKey s.input with _ | ⟨ev, rest⟩
  · exact ⟨rfl, rfl, s.buf, s.out ++ [.await], rfl⟩
  · cases ev <;> exact ⟨rfl, rfl, s.buf, s.out ++ [.await], rfl⟩

theorem isearchUpdate_ed (E : Env) (it : ISt) (n : Nat) :
    isearchUpdate E it n = Ed.searchUpdate E.logic it n := by
  induction n with
  | zero => rfl
  | succ n ih =>
    rw [isearchUpdate, Ed.searchUpdate]
    have : E.logic.history = E.history := rfl
    rw [this]
    cases E.history[n]? with
    | none => rfl
    | some l =>
      simp only [ih]
      rfl

theorem isearchPrev_ed {E : Env} {s : St} {it it' : ISt} {n : Nat} {i : Int}
    (h : isearchPrev E s it n i = .ok it') : it' = Ed.searchPrev E.logic it n i := by
  induction n generalizing i with
  | zero => cases h
  | succ n ih =>
    rw [isearchPrev] at h
    rw [Ed.searchPrev]
    have hl : Ed.histLen E.logic = E.histLen := rfl
    simp only [hl]
    try simp only at h
    generalize (if i < 0 then E.histLen - 1 else i) = j at h ⊢
    split at h
    · rename_i hc
      simp only [pure_ok] at h
      rw [if_pos hc]; exact h.symm
    · rename_i hc
      rw [if_neg hc]
      try dsimp only at h
      obtain ⟨line, h1, h⟩ := bind_ok.mp h
      obtain ⟨_, _, rfl⟩ := histAt_ok h1
      split at h
      · rename_i hc2
        simp only [pure_ok] at h
        rw [if_pos (by exact hc2)]; exact h.symm
      · rename_i hc2
        rw [if_neg (by exact hc2)]
        exact ih h

theorem isearchNext_ed {E : Env} {s : St} {it it' : ISt} {n : Nat} {i : Int}
    (h : isearchNext E s it n i = .ok it') : it' = Ed.searchNext E.logic it n i := by
  induction n generalizing i with
  | zero => cases h
  | succ n ih =>
    rw [isearchNext] at h
    rw [Ed.searchNext]
    have hl : Ed.histLen E.logic = E.histLen := rfl
    simp only [hl]
    split at h
    · rename_i hc
      simp only [pure_ok] at h
      rw [if_pos hc]; exact h.symm
    · rename_i hc
      rw [if_neg hc]
      try dsimp only at h
      split at h
      · rename_i hc
        simp only [pure_ok] at h
        rw [if_pos hc]; exact h.symm
      · rename_i hc
        rw [if_neg hc]
        try dsimp only at h
        obtain ⟨line, h1, h⟩ := bind_ok.mp h
        obtain ⟨_, _, rfl⟩ := histAt_ok h1
        split at h
        · rename_i hc2
          simp only [pure_ok] at h
          rw [if_pos (by exact hc2)]; exact h.symm
        · rename_i hc2
          rw [if_neg (by exact hc2)]
          exact ih h

theorem isearchLoop_ed {E : Env} {n : Nat} {it : ISt} {s : St} {p : St × Result}
    (h : isearchLoop E n it s = .ok p) :
    p.1.ed = Ed.searchLoop E.logic n it s.ed ∧ p.2 = .cont := by
  induction n generalizing it s with
  | zero => cases h
  | succ n ih =>
    rw [isearchLoop] at h
    rw [Ed.searchLoop]
    obtain ⟨s1, h1, h⟩ := bind_ok.mp h
    have e1 : ((eraseline s1).emit .cursorOn).ed = s.ed := (drawLoop_same h1).ed
    have ek := (getKey_ed ((eraseline s1).emit .cursorOn)).1
    rw [e1] at ek
    try simp only at h
    generalize getKey ((eraseline s1).emit .cursorOn) = g at h ek
    rw [← ek]
    obtain ⟨k, s2⟩ := g
    cases k with
    | none =>
      simp only [pure_ok] at h
      subst h; exact ⟨rfl, rfl⟩
    | some key =>
      simp only at h ⊢
      have e2 : (gotoHead (s2.emit .cursorOff)).ed = s2.ed := rfl
      generalize gotoHead (s2.emit .cursorOff) = s3 at h e2
      rw [← e2]
      have hlen : E.logic.history.length = E.history.length := rfl
      rw [hlen]
      split at h
      case isTrue hc =>
        rw [if_pos hc, ← isearchUpdate_ed]
        exact ih h
      case isFalse hc =>
        rw [if_neg hc]
        split at h
        case isTrue hc2 =>
          rw [if_pos hc2]
          obtain ⟨s4, h4, h⟩ := bind_ok.mp h
          simp only [pure_ok] at h
          subst h
          refine ⟨?_, rfl⟩
          simp only
          rw [replaceAndRepaint_ed h4]
          congr 1
          simp [St.ed, St.line, Ed.text, St.text_eq]
        case isFalse hc2 =>
          rw [if_neg hc2]
          split at h
          case isTrue hc3 =>
            rw [if_pos hc3]
            obtain ⟨⟨a, b⟩, h4, h⟩ := bind_ok.mp h
            obtain ⟨s5, h5, h⟩ := bind_ok.mp h
            obtain ⟨s6, h6, h⟩ := bind_ok.mp h
            simp only [pure_ok] at h
            subst h
            refine ⟨?_, rfl⟩
            have e6 := (puts_same h6).1.ed
            have e5 := (puts_same h5).1.ed
            simp only
            rw [e6, ← e5]
            rfl
          case isFalse hc3 =>
            rw [if_neg hc3]
            split at h
            case isTrue hc4 =>
              rw [if_pos hc4]
              obtain ⟨it', h4, h⟩ := bind_ok.mp h
              rw [← isearchPrev_ed h4]
              exact ih h
            case isFalse hc4 =>
              rw [if_neg hc4]
              split at h
              case isTrue hc5 =>
                rw [if_pos hc5]
                obtain ⟨it', h4, h⟩ := bind_ok.mp h
                rw [← isearchNext_ed h4]
                exact ih h
              case isFalse hc5 =>
                rw [if_neg hc5]
                try simp only at h
                split at h
                case isTrue hc6 =>
                  rw [if_pos hc6]
                  exact ih h
                case isFalse hc6 =>
                  rw [if_neg hc6, ← isearchUpdate_ed]
                  exact ih h

end Readline
