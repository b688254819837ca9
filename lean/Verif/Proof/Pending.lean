import Verif.Proof.Split
/-!
# The code points that wait for the next key
-/
namespace Readline
open Spec

theorem popKey_mem {inp : List Ev} {k : Ev} {rest : List Ev} (h : popKey inp = some (k, rest)) :
    k ∈ inp := by
  induction inp generalizing rest with
  | nil => cases h
  | cons e inp ih =>
    cases e with
    | resize n =>
      rw [popKey] at h
      split at h
      · rename_i hp
        cases h
        exact List.mem_cons_of_mem _ (ih hp)
      · cases h
    | key k => cases h; simp
    | err k => cases h; simp

namespace Ed
variable {L : Logic} {e : Ed}

@[simp] theorem insert_pending (p : Int) (t : Bytes) : (e.insert L p t).pending = e.pending := rfl
@[simp] theorem replace_pending (p : Int) (t : Bytes) : (e.replace L p t).pending = e.pending := by
  simp [Ed.replace, delete_pending]
@[simp] theorem typeTail_pending (t : Bytes) : (e.typeTail L t).pending = e.pending := by
  simp [Ed.typeTail]
@[simp] theorem showHist_pending : (e.showHist L).pending = e.pending := by
  unfold Ed.showHist
  dsimp only
  split <;> rfl
@[simp] theorem saveHist_pending : (e.saveHist L).pending = e.pending := by
  simp only [Ed.saveHist]
  split <;> rfl
@[simp] theorem swap_pending : e.swap.pending = e.pending := by
  simp only [Ed.swap]
  repeat' split
  all_goals rfl
@[simp] theorem undo_pending : (e.undo L).pending = e.pending := by
  unfold Ed.undo
  split
  · rfl
  · dsimp only
    rw [predict_pending]
    split <;> rfl
theorem searchLoop_pending (n : Nat) (it : ISt) (e : Ed) :
    (searchLoop L n it e).pending = e.pending := by
  induction n generalizing it e with
  | zero => rfl
  | succ n ih =>
    unfold Ed.searchLoop
    have hf := (getKey_ed_fields e).2.2.2.2.2.2.1
    cases hk : getKey e with
    | mk k e' =>
      rw [hk] at hf
      dsimp only at hf
      cases k with
      | none => exact hf
      | some key =>
        dsimp only
        split
        · rw [ih]; exact hf
        split
        · rw [replace_pending]; exact hf
        split
        · exact hf
        split
        · rw [ih]; exact hf
        split
        · rw [ih]; exact hf
        split
        · rw [ih]; exact hf
        · rw [ih]; exact hf

/-- What a typed key leaves waiting. -/
theorem type_pending (k : Bytes) : (e.type L k).pending = e.pending ∨ (e.type L k).pending = [] ∨
    (areZeroWidthJoin L.cfg (stripAlt k) = true ∧ 0 < e.cursor ∧
      (e.type L k).pending = (e.line[(e.cursor - 1).toNat]?).elim [] Moji.write ++ stripAlt k) := by
  unfold Ed.type
  dsimp only
  split
  · rename_i h
    rw [Bool.and_eq_true, decide_eq_true_eq] at h
    right; right
    exact ⟨h.1, h.2, by rw [backspace_pending]⟩
  · split
    · left; rw [typeTail_pending, backspace_pending]
    · split
      · right; left; rw [typeTail_pending]
      · left; rw [typeTail_pending]

theorem call_pending (c : Cmd) : (Ed.call L c e).1.pending = e.pending ∨
    (Ed.call L c e).1.pending = [] ∨
    ∃ k, (c = .selfInsert k ∨ .key k ∈ e.input) ∧ areZeroWidthJoin L.cfg (stripAlt k) = true ∧
      0 < e.cursor ∧
      (Ed.call L c e).1.pending = (e.line[(e.cursor - 1).toNat]?).elim [] Moji.write ++ stripAlt k := by
  cases c with
  | acceptLine | custom | endOfLine | forwardWord | interrupt | killLine | killWholeLine => exact Or.inl rfl
  | beginningOfLine | clearScreen | repaintOnNewline | backwardWord => left; simp [Ed.call]
  | backwardChar => left; simp only [Ed.call]; split <;> simp
  | forwardChar =>
    left
    simp only [Ed.call]
    repeat' split
    all_goals first | rfl | simp
  | backwardDeleteChar => left; exact backspace_pending
  | deleteChar => left; simp [Ed.call, delete_pending]
  | deleteOrAbort =>
    left
    simp only [Ed.call]
    split
    · simp [delete_pending]
    · rfl
  | unixWordRubout => left; simp [Ed.call, Ed.wordRubout, delete_pending]
  | unixLineDiscard => left; simp [Ed.call, delete_pending]
  | yank => left; simp only [Ed.call]; split <;> simp
  | yankWithQuote => left; simp only [Ed.call]; split <;> simp
  | swapChar => left; simp [Ed.call]
  | undo => left; simp [Ed.call]
  | previousHistory =>
    left
    simp only [Ed.call, prevHist]
    repeat' split
    all_goals simp
  | nextHistory =>
    left
    simp only [Ed.call, nextHist]
    repeat' split
    all_goals simp
  | isearchBackward => left; exact searchLoop_pending _ _ _
  | completion P =>
    left
    show (Ed.complete L P e).pending = _
    rcases Ed.complete_cases L P e with hc | hc | ⟨pos, t, -, -, hc⟩ <;> rw [hc]
    all_goals simp
  | selfInsert k =>
    rcases type_pending (L := L) (e := e) k with h | h | ⟨h1, h2, h3⟩
    · exact Or.inl h
    · exact Or.inr (Or.inl h)
    · exact Or.inr (Or.inr ⟨k, Or.inl rfl, h1, h2, h3⟩)
  | quotedInsert =>
    simp only [Ed.call]
    have hf := getKey_ed_fields e
    have hm : ∀ k e', getKey e = (some k, e') → Ev.key k ∈ e.input := by
      intro k e' hk
      unfold Ed.getKey at hk
      split at hk
      · rename_i k' rest hp
        cases hk
        exact popKey_mem hp
      · cases hk
      · cases hk
    cases hk : getKey e with
    | mk k e' =>
      rw [hk] at hf
      obtain ⟨f1, -, f3, -, -, -, f7, -⟩ := hf
      dsimp only at f1 f3 f7
      cases k with
      | none => left; exact f7
      | some k =>
        rcases type_pending (L := L) (e := e') k with h | h | ⟨h1, h2, h3⟩
        · left; exact h.trans f7
        · right; left; exact h
        · right; right
          rw [f1, f3] at h3
          rw [f3] at h2
          exact ⟨k, Or.inr (hm k e' hk), h1, h2, h3⟩

end Ed
end Readline
