import Verif.Proof.UndoCall
/-!
# What the commands do not touch
-/
namespace Readline
namespace Ed

/-- The fields that only history commands, keyboard reads and kills change. -/
structure Frame (e e' : Ed) : Prop where
  histPtr : e'.histPtr = e.histPtr
  modHist : e'.modHist = e.modHist
  clip : e'.clip = e.clip
  input : e'.input = e.input

theorem Frame.refl (e : Ed) : Frame e e := ⟨rfl, rfl, rfl, rfl⟩
theorem Frame.trans {a b c : Ed} (h : Frame a b) (h' : Frame b c) : Frame a c :=
  ⟨h'.1.trans h.1, h'.2.trans h.2, h'.3.trans h.3, h'.4.trans h.4⟩

theorem predict_frame (L : Logic) (e : Ed) : Frame e (predict L e) := ⟨by simp, by simp, by simp, by simp⟩
theorem insert_frame (L : Logic) (e : Ed) (p : Int) (t : Bytes) : Frame e (e.insert L p t) :=
  ⟨rfl, rfl, rfl, rfl⟩
theorem delete_frame (e : Ed) (p n : Int) : Frame e (e.delete p n) := by
  unfold delete; split <;> exact ⟨rfl, rfl, rfl, rfl⟩
theorem replace_frame (L : Logic) (e : Ed) (p : Int) (t : Bytes) : Frame e (e.replace L p t) := by
  unfold replace
  have h := ((delete_frame e p (e.cursor - p)).trans (insert_frame L _ p t))
  exact Frame.trans (b := { (e.delete p (e.cursor - p)).insert L p t with
    cursor := p + (segs L.cfg t).length
    undoes := joinUndoes ((e.delete p (e.cursor - p)).insert L p t).undoes })
    ⟨h.1, h.2, h.3, h.4⟩ (predict_frame L _)
theorem backspace_frame (L : Logic) (e : Ed) : Frame e (backspace L e) := by
  unfold backspace
  split
  · have := delete_frame { e with cursor := e.cursor - 1 } (e.cursor - 1) 1
    exact Frame.trans ⟨this.1, this.2, this.3, this.4⟩ (predict_frame L _)
  · exact .refl e
theorem typeTail_frame (L : Logic) (e : Ed) (t : Bytes) : Frame e (typeTail L e t) := by
  unfold typeTail
  (refine Frame.trans ?_ (predict_frame L _); exact ⟨rfl, rfl, rfl, rfl⟩)
theorem type_frame (L : Logic) (e : Ed) (k : Bytes) : Frame e (type L e k) := by
  unfold type
  dsimp only
  split
  · (refine Frame.trans ?_ (backspace_frame L _); exact ⟨rfl, rfl, rfl, rfl⟩)
  · split
    · exact (backspace_frame L e).trans (typeTail_frame L _ _)
    · split
      · (refine Frame.trans ?_ (typeTail_frame L _ _); exact ⟨rfl, rfl, rfl, rfl⟩)
      · exact typeTail_frame L e _
theorem swap_frame (e : Ed) : Frame e (swap e) := by
  unfold swap
  repeat' split
  all_goals exact ⟨rfl, rfl, rfl, rfl⟩
theorem undo_frame (L : Logic) (e : Ed) : Frame e (undo L e) := by
  unfold undo
  split
  · exact .refl e
  · dsimp only
    split <;> (refine Frame.trans ?_ (predict_frame L _); exact ⟨rfl, rfl, rfl, rfl⟩)

theorem complete_frame (L : Logic) (P : Completing) (e : Ed) : Frame e (complete L P e) := by
  rcases complete_cases L P e with h | h | ⟨pos, t, -, -, h⟩ <;> rw [h]
  · exact .refl e
  · exact predict_frame L e
  · exact replace_frame L e _ _

/-- Search touches the history no more than typing. -/
theorem searchLoop_hist (L : Logic) (n : Nat) (it : ISt) (e : Ed) :
    (searchLoop L n it e).histPtr = e.histPtr ∧ (searchLoop L n it e).modHist = e.modHist ∧
    (searchLoop L n it e).clip = e.clip := by
  induction n generalizing it e with
  | zero => exact ⟨rfl, rfl, rfl⟩
  | succ n ih =>
    unfold searchLoop
    have hf := getKey_ed_fields e
    cases hk : getKey e with
    | mk k e' =>
      rw [hk] at hf
      obtain ⟨-, -, -, f4, f5, f6, -⟩ := hf
      dsimp only at f4 f5 f6
      have ih' : ∀ it, (searchLoop L n it e').histPtr = e.histPtr ∧
          (searchLoop L n it e').modHist = e.modHist ∧ (searchLoop L n it e').clip = e.clip := by
        intro it
        rw [← f4, ← f5, ← f6]; exact ih it e'
      cases k with
      | none => exact ⟨f4, f5, f6⟩
      | some key =>
        dsimp only
        split
        · exact ih' _
        split
        · have := replace_frame L { e' with
            undoes := { pos := 0, del := 0, text := e'.text } :: e'.undoes
            line := []
            cursor := 0 } 0 it.found
          exact ⟨this.1.trans f4, this.2.trans f5, this.3.trans f6⟩
        split
        · exact ⟨f4, f5, f6⟩
        split
        · exact ih' _
        split
        · exact ih' _
        split
        · exact ih' _
        · exact ih' _

/-- Only the two history commands move in the history or remember modified entries. -/
theorem call_hist (L : Logic) (c : Cmd) (e : Ed) (h1 : c ≠ .previousHistory) (h2 : c ≠ .nextHistory) :
    (call L c e).1.histPtr = e.histPtr ∧ (call L c e).1.modHist = e.modHist := by
  have fr : ∀ e', Frame e e' → e'.histPtr = e.histPtr ∧ e'.modHist = e.modHist :=
    fun e' h => ⟨h.1, h.2⟩
  cases c with
  | previousHistory => exact absurd rfl h1
  | nextHistory => exact absurd rfl h2
  | acceptLine => exact ⟨rfl, rfl⟩
  | interrupt => exact ⟨rfl, rfl⟩
  | beginningOfLine => simp [call]
  | backwardChar => simp only [call]; split <;> simp
  | endOfLine => exact ⟨rfl, rfl⟩
  | forwardChar =>
    simp only [call]
    split
    · split
      · exact fr _ (replace_frame L e _ _)
      · exact ⟨rfl, rfl⟩
    · exact ⟨rfl, rfl⟩
  | backwardDeleteChar => exact fr _ (backspace_frame L e)
  | deleteChar => exact fr _ ((delete_frame e _ _).trans (predict_frame L _))
  | deleteOrAbort =>
    simp only [call]
    split
    · exact fr _ ((delete_frame e _ _).trans (predict_frame L _))
    · exact ⟨rfl, rfl⟩
  | killLine => exact ⟨rfl, rfl⟩
  | killWholeLine => exact ⟨rfl, rfl⟩
  | unixWordRubout =>
    simp only [call, wordRubout, predict_histPtr, predict_modHist]
    exact ⟨(delete_frame _ _ _).1, (delete_frame _ _ _).2⟩
  | unixLineDiscard =>
    simp only [call, predict_histPtr, predict_modHist]
    exact ⟨(delete_frame _ _ _).1, (delete_frame _ _ _).2⟩
  | clearScreen => simp [call]
  | repaintOnNewline => simp [call]
  | quotedInsert =>
    simp only [call]
    have hf := getKey_ed_fields e
    cases hk : getKey e with
    | mk k e' =>
      rw [hk] at hf
      obtain ⟨-, -, -, f4, f5, f6, -⟩ := hf
      cases k with
      | none => exact ⟨f4, f5⟩
      | some k => exact ⟨(type_frame L e' k).1.trans f4, (type_frame L e' k).2.trans f5⟩
  | yank =>
    simp only [call]
    split
    · exact ⟨rfl, rfl⟩
    · exact fr _ (replace_frame L e _ _)
  | yankWithQuote =>
    simp only [call]
    split
    · exact ⟨rfl, rfl⟩
    · exact fr _ (replace_frame L e _ _)
  | swapChar => exact fr _ (swap_frame e)
  | backwardWord => simp [call]
  | forwardWord => exact ⟨rfl, rfl⟩
  | undo => exact fr _ (undo_frame L e)
  | isearchBackward =>
    have := searchLoop_hist L (e.input.length + 1) { lastPos := histLen L - 1 } e
    exact ⟨this.1, this.2.1⟩
  | selfInsert k => exact fr _ (type_frame L e k)
  | completion P => exact fr _ (complete_frame L P e)
  | custom => exact ⟨rfl, rfl⟩

theorem showHist_histPtr (L : Logic) (e : Ed) : (showHist L e).histPtr = e.histPtr ∧
    (showHist L e).modHist = e.modHist := by
  unfold showHist
  dsimp only
  split <;> exact ⟨rfl, rfl⟩

/-- The history pointer stays between the oldest entry and the new line. -/
theorem call_histOk (L : Logic) (c : Cmd) (e : Ed) (h0 : 0 ≤ e.histPtr) (h1 : e.histPtr ≤ histLen L) :
    0 ≤ (call L c e).1.histPtr ∧ (call L c e).1.histPtr ≤ histLen L := by
  by_cases hp : c = .previousHistory
  · subst hp
    simp only [call, prevHist]
    split
    · exact ⟨h0, h1⟩
    · split
      · exact ⟨h0, h1⟩
      · split
        · rw [(showHist_histPtr L _).1]
          simp only [(saveHist_fields L _).2.2.2]
          omega
        · rw [(showHist_histPtr L _).1]
          simp only [(saveHist_fields L _).2.2.2]
          omega
  · by_cases hn : c = .nextHistory
    · subst hn
      simp only [call, nextHist]
      split
      · exact ⟨h0, h1⟩
      · split
        · exact ⟨h0, h1⟩
        · rw [(showHist_histPtr L _).1]
          simp only [(saveHist_fields L _).2.2.2]
          omega
    · rw [(call_hist L c e hp hn).1]
      exact ⟨h0, h1⟩

end Ed
end Readline
