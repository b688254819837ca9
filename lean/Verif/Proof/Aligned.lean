import Verif.Proof.Draw
import Verif.Proof.Observe
/-!
# In every session the tabs are in their columns when a key is awaited
-/
namespace Readline
open Spec

/-- The tabs of the line are in their columns. -/
def St.aligned (E : Env) (s : St) : Prop := Aligned E.cfg (s.buf.map Cell.moji)

theorem aligned_of_buf {E : Env} {s s' : St} (h : s.aligned E) (e : s'.buf = s.buf) : s'.aligned E := by
  unfold St.aligned; rw [e]; exact h

theorem aligned_nil {E : Env} {s : St} (e : s.buf = []) : s.aligned E := by
  unfold St.aligned; rw [e]; exact Aligned.nil

theorem backspace_aligned {E : Env} {s : St} (h : s.aligned E) {p : St × Result}
    (hc : cmdBackwardDeleteChar E s = .ok p) : p.1.aligned E := by
  unfold cmdBackwardDeleteChar at hc
  split at hc
  · obtain ⟨⟨s1, w⟩, h1, hc⟩ := bind_ok.mp hc
    obtain ⟨s2, h2, hc⟩ := bind_ok.mp hc
    cases hc
    exact repaint_aligned h2
  · cases hc; exact h

theorem insertTail_aligned {E : Env} {s : St} {k : Bytes} {p : St × Result}
    (hc : selfInsertTail E s k = .ok p) : p.1.aligned E := by
  unfold selfInsertTail at hc
  obtain ⟨⟨s1, w⟩, h1, hc⟩ := bind_ok.mp hc
  obtain ⟨w2, h2, hc⟩ := bind_ok.mp hc
  obtain ⟨s3, h3, hc⟩ := bind_ok.mp hc
  cases hc
  exact repaint_aligned h3

theorem selfInsert_aligned {E : Env} {s : St} {k : Bytes} (h : s.aligned E) {p : St × Result}
    (hc : cmdSelfInsert E k s = .ok p) : p.1.aligned E := by
  unfold cmdSelfInsert at hc
  dsimp only at hc
  split at hc
  · obtain ⟨c, h1, hc⟩ := bind_ok.mp hc
    exact backspace_aligned (by exact h) hc
  · split at hc
    · obtain ⟨c, h1, hc⟩ := bind_ok.mp hc
      obtain ⟨⟨s1, r⟩, h2, hc⟩ := bind_ok.mp hc
      exact insertTail_aligned hc
    · split at hc <;> exact insertTail_aligned hc

theorem replace_aligned {E : Env} {s s' : St} {q : Int} {t : Bytes}
    (hc : replaceAndRepaint E s q t = .ok s') : s'.aligned E := by
  unfold replaceAndRepaint at hc
  obtain ⟨⟨s1, w⟩, h1, hc⟩ := bind_ok.mp hc
  obtain ⟨⟨s2, w2⟩, h2, hc⟩ := bind_ok.mp hc
  exact repaint_aligned hc

theorem repaintAll_aligned {E : Env} {s s' : St} (hc : repaintAll E s = .ok s') : s'.aligned E := by
  unfold repaintAll at hc
  exact repaint_aligned hc

theorem endOfLine_aligned {E : Env} {s : St} {p : St × Result} (hc : cmdEndOfLine E s = .ok p) :
    p.1.aligned E := by
  unfold cmdEndOfLine at hc
  obtain ⟨w, h1, hc⟩ := bind_ok.mp hc
  split at hc
  · obtain ⟨s1, h2, hc⟩ := bind_ok.mp hc
    cases hc
    have hA := puts_aligned h2; exact hA
  · obtain ⟨c, h2, hc⟩ := bind_ok.mp hc
    obtain ⟨s1, h3, hc⟩ := bind_ok.mp hc
    cases hc
    have hA := puts_aligned h3; exact hA

theorem showHistory_aligned {E : Env} {s : St} {p : St × Result} (hc : showHistory E s = .ok p) :
    p.1.aligned E := by
  unfold showHistory at hc
  obtain ⟨⟨s1, r1⟩, h1, hc⟩ := bind_ok.mp hc
  obtain ⟨t, h2, hc⟩ := bind_ok.mp hc
  dsimp only at hc
  split at hc
  · obtain ⟨⟨s2, l⟩, h3, hc⟩ := bind_ok.mp hc
    obtain ⟨⟨s3, r⟩, h4, hc⟩ := bind_ok.mp hc
    cases hc
    have hA := endOfLine_aligned h4; exact hA
  · cases hc
    apply aligned_nil
    unfold cmdKillWholeLine at h1
    cases h1
    rfl

theorem drawLoop_buf {C : Cfg} {vw : Int} {ms : List Moji} {dw : Int} {s s' : St}
    (h : drawLoop C vw ms dw s = .ok s') : ∃ o, s' = { s with out := o } := by
  induction ms generalizing dw s with
  | nil => cases h; exact ⟨_, rfl⟩
  | cons m ms ih =>
    unfold drawLoop at h
    dsimp only at h
    split at h
    · cases h; exact ⟨_, rfl⟩
    · obtain ⟨s1, h1, h2⟩ := bind_ok.mp h
      obtain ⟨t, e⟩ := printMoji_eq h1
      obtain ⟨o, e2⟩ := ih h2
      exact ⟨o, by rw [e2, e]⟩

theorem getKey_keeps_buf (s : St) : (getKey s).2.buf = s.buf := by
  unfold getKey
  dsimp only
  split <;> rfl

theorem isearch_aligned {E : Env} (n : Nat) (it : ISt) (s : St) (h : s.aligned E) {p : St × Result}
    (hc : isearchLoop E n it s = .ok p) : p.1.aligned E := by
  induction n generalizing it s with
  | zero => cases hc
  | succ n ih =>
    unfold isearchLoop at hc
    obtain ⟨s1, h1, hc⟩ := bind_ok.mp hc
    obtain ⟨o, e1⟩ := drawLoop_buf h1
    have a1 : s1.aligned E := aligned_of_buf h (by rw [e1])
    dsimp only at hc
    have hb := getKey_keeps_buf ((eraseline s1).emit .cursorOn)
    generalize getKey ((eraseline s1).emit .cursorOn) = g at hc hb
    obtain ⟨key, s2⟩ := g
    have a2 : s2.aligned E := aligned_of_buf a1 hb
    cases key with
    | none => cases hc; exact a2
    | some key =>
      dsimp only at hc
      have a3 : (gotoHead (s2.emit .cursorOff)).aligned E := a2
      generalize gotoHead (s2.emit .cursorOff) = s3 at hc a3
      split at hc
      · exact ih _ _ a3 hc
      · split at hc
        · obtain ⟨s4, h4, hc⟩ := bind_ok.mp hc
          cases hc
          have hA := replace_aligned h4; exact hA
        · split at hc
          · obtain ⟨⟨v, w⟩, h4, hc⟩ := bind_ok.mp hc
            obtain ⟨s5, h5, hc⟩ := bind_ok.mp hc
            obtain ⟨s6, h6, hc⟩ := bind_ok.mp hc
            cases hc
            have hA := puts_aligned h6; exact hA
          · split at hc
            · obtain ⟨it', h4, hc⟩ := bind_ok.mp hc
              exact ih _ _ a3 hc
            · split at hc
              · obtain ⟨it', h4, hc⟩ := bind_ok.mp hc
                exact ih _ _ a3 hc
              · split at hc
                · exact ih _ _ a3 hc
                · exact ih _ _ a3 hc

theorem call_aligned {E : Env} {c : Cmd} (hb : c.builtin = true) {s : St} (h : s.aligned E)
    {p : St × Result} (hc : c.call E s = .ok p) : p.1.aligned E := by
  cases c with
  | custom f => cases hb
  | completion P =>
    rcases cmdComplete_ok hc with rfl | rfl | ⟨t, s1, h1, rfl⟩ | ⟨pos, t, s1, -, -, h1, rfl⟩
    · exact h
    · exact h
    · exact repaintAll_aligned h1
    · exact replace_aligned h1
  | acceptLine => cases hc; exact h
  | interrupt => cases hc; exact aligned_nil rfl
  | beginningOfLine =>
    obtain ⟨s1, h1, hc⟩ := bind_ok.mp hc
    cases hc; exact repaint_aligned h1
  | backwardChar =>
    replace hc : cmdBackwardChar E s = .ok p := hc
    unfold cmdBackwardChar at hc
    split at hc
    · cases hc; exact h
    · obtain ⟨s1, h1, hc⟩ := bind_ok.mp hc
      cases hc; exact repaint_aligned h1
  | endOfLine => exact endOfLine_aligned hc
  | forwardChar =>
    replace hc : cmdForwardChar E s = .ok p := hc
    unfold cmdForwardChar at hc
    split at hc
    · split at hc
      · obtain ⟨s1, h1, hc⟩ := bind_ok.mp hc
        cases hc; have hA := replace_aligned h1; exact hA
      · cases hc; exact h
    · obtain ⟨w, h1, hc⟩ := bind_ok.mp hc
      split at hc
      · obtain ⟨s1, h1, hc⟩ := bind_ok.mp hc
        cases hc; have hA := puts_aligned h1; exact hA
      · obtain ⟨c, h2, hc⟩ := bind_ok.mp hc
        obtain ⟨v, h3, hc⟩ := bind_ok.mp hc
        obtain ⟨s1, h1, hc⟩ := bind_ok.mp hc
        cases hc; have hA := puts_aligned h1; exact hA
  | backwardDeleteChar => exact backspace_aligned h hc
  | deleteChar =>
    obtain ⟨⟨s1, w⟩, h1, hc⟩ := bind_ok.mp hc
    obtain ⟨s2, h2, hc⟩ := bind_ok.mp hc
    cases hc; exact repaint_aligned h2
  | deleteOrAbort =>
    replace hc : cmdDeleteOrAbort E s = .ok p := hc
    unfold cmdDeleteOrAbort at hc
    split at hc
    · obtain ⟨⟨s1, w⟩, h1, hc⟩ := bind_ok.mp hc
      obtain ⟨s2, h2, hc⟩ := bind_ok.mp hc
      cases hc; exact repaint_aligned h2
    · cases hc; exact h
  | killLine =>
    obtain ⟨t, h1, hc⟩ := bind_ok.mp hc
    obtain ⟨l, h2, hc⟩ := bind_ok.mp hc
    obtain ⟨r, h3, hc⟩ := bind_ok.mp hc
    cases hc
    have := (slice_ok h3).2.2.2
    show Aligned E.cfg (r.map Cell.moji)
    have e : s.buf.map Cell.moji = r.map Cell.moji ++ (s.buf.drop s.cursor.toNat).map Cell.moji := by
      rw [this, ← List.map_append]
      show _ = ((s.buf.take s.cursor.toNat).drop 0 ++ _).map _
      rw [List.drop_zero, List.take_append_drop]
    have h' : Aligned E.cfg (s.buf.map Cell.moji) := h
    rw [e] at h'
    exact h'.prefix
  | killWholeLine => cases hc; exact aligned_nil rfl
  | unixWordRubout =>
    replace hc : cmdUnixWordRubout E s = .ok p := hc
    unfold cmdUnixWordRubout at hc
    obtain ⟨_, h1, hc⟩ := bind_ok.mp hc
    obtain ⟨n, h2, hc⟩ := bind_ok.mp hc
    obtain ⟨t, h3, hc⟩ := bind_ok.mp hc
    obtain ⟨⟨s1, w⟩, h4, hc⟩ := bind_ok.mp hc
    obtain ⟨s2, h5, hc⟩ := bind_ok.mp hc
    cases hc; exact repaint_aligned h5
  | unixLineDiscard =>
    obtain ⟨t, h1, hc⟩ := bind_ok.mp hc
    obtain ⟨⟨s1, w⟩, h2, hc⟩ := bind_ok.mp hc
    obtain ⟨s2, h3, hc⟩ := bind_ok.mp hc
    cases hc; exact repaint_aligned h3
  | clearScreen =>
    obtain ⟨s1, h1, hc⟩ := bind_ok.mp hc
    cases hc; exact repaintAll_aligned h1
  | repaintOnNewline =>
    obtain ⟨s1, h1, hc⟩ := bind_ok.mp hc
    cases hc; exact repaintAll_aligned h1
  | quotedInsert =>
    replace hc : cmdQuotedInsert E s = .ok p := hc
    unfold cmdQuotedInsert at hc
    dsimp only at hc
    have hb := getKey_keeps_buf (s.emit .cursorOn)
    generalize getKey (s.emit .cursorOn) = g at hc hb
    obtain ⟨key, s2⟩ := g
    have a2 : s2.aligned E := aligned_of_buf h hb
    cases key with
    | none => cases hc; exact a2
    | some key =>
      obtain ⟨⟨s3, r⟩, h3, hc⟩ := bind_ok.mp hc
      cases hc
      exact selfInsert_aligned (p := (s3, r)) a2 h3
  | yank =>
    replace hc : cmdYank E s = .ok p := hc
    unfold cmdYank at hc
    split at hc
    · cases hc; exact h
    · obtain ⟨s1, h1, hc⟩ := bind_ok.mp hc
      cases hc; have hA := replace_aligned h1; exact hA
  | yankWithQuote =>
    replace hc : cmdYankWithQuote E s = .ok p := hc
    unfold cmdYankWithQuote at hc
    split at hc
    · cases hc; exact h
    · obtain ⟨s1, h1, hc⟩ := bind_ok.mp hc
      cases hc; have hA := replace_aligned h1; exact hA
  | swapChar =>
    replace hc : cmdSwapChar E s = .ok p := hc
    unfold cmdSwapChar at hc
    split at hc
    · split at hc
      · cases hc; exact h
      · obtain ⟨l, h1, hc⟩ := bind_ok.mp hc
        obtain ⟨s1, h2, hc⟩ := bind_ok.mp hc
        cases hc; have hA := puts_aligned h2; exact hA
    · split at hc
      · cases hc; exact h
      · obtain ⟨l, h1, hc⟩ := bind_ok.mp hc
        obtain ⟨w, h3, hc⟩ := bind_ok.mp hc
        obtain ⟨s1, h2, hc⟩ := bind_ok.mp hc
        cases hc; have hA := puts_aligned h2; exact hA
  | backwardWord =>
    obtain ⟨_, h1, hc⟩ := bind_ok.mp hc
    obtain ⟨s1, h2, hc⟩ := bind_ok.mp hc
    cases hc; exact repaint_aligned h2
  | forwardWord =>
    replace hc : cmdForwardWord E s = .ok p := hc
    unfold cmdForwardWord at hc
    obtain ⟨_, h1, hc⟩ := bind_ok.mp hc
    obtain ⟨w, h2, hc⟩ := bind_ok.mp hc
    split at hc
    · obtain ⟨s1, h2, hc⟩ := bind_ok.mp hc
      cases hc; have hA := puts_aligned h2; exact hA
    · obtain ⟨s1, h2, hc⟩ := bind_ok.mp hc
      cases hc; exact repaint_aligned h2
  | undo =>
    replace hc : cmdUndo E s = .ok p := hc
    unfold cmdUndo at hc
    split at hc
    · cases hc; exact h
    · obtain ⟨b1, h1, hc⟩ := bind_ok.mp hc
      obtain ⟨s1, h2, hc⟩ := bind_ok.mp hc
      obtain ⟨s2, h3, hc⟩ := bind_ok.mp hc
      cases hc; exact repaint_aligned h3
  | previousHistory =>
    replace hc : cmdPreviousHistory E s = .ok p := hc
    unfold cmdPreviousHistory at hc
    split at hc
    · cases hc; exact h
    · split at hc
      · cases hc; exact h
      · obtain ⟨s1, h1, hc⟩ := bind_ok.mp hc
        exact showHistory_aligned hc
  | nextHistory =>
    replace hc : cmdNextHistory E s = .ok p := hc
    unfold cmdNextHistory at hc
    split at hc
    · cases hc; exact h
    · split at hc
      · cases hc; exact h
      · obtain ⟨s1, h1, hc⟩ := bind_ok.mp hc
        exact showHistory_aligned hc
  | isearchBackward => exact isearch_aligned _ _ (gotoHead s) h hc
  | selfInsert k => exact selfInsert_aligned h hc

theorem repaintLastLine_aligned {E : Env} {s s' : St} (hc : repaintLastLine E s = .ok s') :
    s'.aligned E := by
  unfold repaintLastLine at hc
  dsimp only at hc
  split at hc <;> exact repaint_aligned hc

theorem step_aligned {E : Env} (hb : BuiltinKeys E) {s s' : St} (h : s.aligned E)
    (hst : step E s = .ok (s', none)) : s'.aligned E := by
  rcases step_cases hst with ⟨n, rest, hi⟩ | ⟨k, rest, hi⟩
  · rw [step, hi] at hst
    obtain ⟨s1, h1, hst⟩ := bind_ok.mp hst
    cases hst
    exact repaintLastLine_aligned h1
  · rw [step, hi] at hst
    dsimp only at hst
    unfold execCmd at hst
    obtain ⟨⟨s1, rc⟩, h1, hst⟩ := bind_ok.mp hst
    have a1 := call_aligned (BuiltinKeys.builtin hb k) (p := (s1, rc)) (by exact h) h1
    dsimp only at hst
    cases rc with
    | cont => cases hst; exact a1
    | _ =>
      obtain ⟨⟨s2, r⟩, h2, hst⟩ := bind_ok.mp hst
      cases hst

theorem reachable_aligned {E : Env} {w : World} {s : St} (hb : BuiltinKeys E) (h : Reachable E w s) :
    s.aligned E := by
  induction h with
  | start h =>
    unfold startSt at h
    obtain ⟨⟨s1, l⟩, h1, h⟩ := bind_ok.mp h
    obtain ⟨s2, h2, h⟩ := bind_ok.mp h
    cases h
    have hA := repaint_aligned (E := E) h2
    exact hA
  | step _ hst ih => exact step_aligned hb ih hst

end Readline
