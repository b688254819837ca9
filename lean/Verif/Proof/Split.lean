import Verif.Spec.Split
import Verif.Proof.Observe
/-!
# Editing commands on the two halves of the line
-/
namespace Readline
open Spec

/-- The two halves on the level of the editor without a screen. -/
structure Ed.At (e : Ed) (l r : List Moji) : Prop where
  line : e.line = l ++ r
  cursor : e.cursor = l.length

theorem Spec.At.ed {s : St} {l r : List Bytes} (h : Spec.At s l r) :
    ∃ l' r', s.ed.At l' r' ∧ l'.map Moji.write = l ∧ r'.map Moji.write = r := by
  have hu := h.units
  rw [St.units_eq, List.map_eq_append_iff] at hu
  obtain ⟨l', r', h1, h2, h3⟩ := hu
  refine ⟨l', r', ⟨h1, ?_⟩, h2, h3⟩
  show s.cursor = _
  rw [h.cursor, ← h2, List.length_map]

theorem Obs.at {s : St} {e : Ed} {l r : List Moji} (ho : Obs s e) (h : e.At l r) :
    Spec.At s (l.map Moji.write) (r.map Moji.write) := by
  refine ⟨?_, ?_⟩
  · rw [ho.units, h.line, List.map_append]
  · rw [ho.cursor, h.cursor, List.length_map]

theorem flatten_write (l : List Moji) : (l.map Moji.write).flatten = lineText l := rfl

namespace Ed
variable {L : Logic} {e : Ed} {l r : List Moji}

theorem At.predict (h : e.At l r) : (Ed.predict L e).At l r := ⟨by simp [h.line], by simp [h.cursor]⟩

theorem At.setClip (h : e.At l r) {c : Option Bytes} : Ed.At { e with clip := c } l r := ⟨h.line, h.cursor⟩

theorem At.toNat (h : e.At l r) : e.cursor.toNat = l.length := by rw [h.cursor]; simp

theorem At.take (h : e.At l r) : e.line.take e.cursor.toNat = l := by rw [h.toNat, h.line]; simp
theorem At.drop (h : e.At l r) : e.line.drop e.cursor.toNat = r := by rw [h.toNat, h.line]; simp

theorem At.len (h : e.At l r) : e.len = l.length + r.length := by simp [Ed.len, h.line]

theorem At.backspace (h : e.At l r) : (Ed.backspace L e).At l.dropLast r := by
  unfold Ed.backspace
  rcases List.eq_nil_or_concat l with rfl | ⟨l', u, rfl⟩
  · rw [if_neg (by rw [h.cursor]; simp)]
    exact h
  · have hc := h.cursor
    have hl := h.line
    rw [if_pos (by rw [hc]; simp)]
    apply At.predict
    have hn : (e.cursor - 1).toNat = l'.length := by rw [hc]; simp
    unfold Ed.delete
    rw [if_neg]
    · refine ⟨?_, ?_⟩
      · dsimp only
        rw [hl, hn]
        simp
      · dsimp only
        rw [hc]; simp
    · rw [not_or]
      refine ⟨by omega, ?_⟩
      simp only [Ed.len, hl, hc]
      simp
      omega

theorem At.deleteChar (h : e.At l r) : (e.delete e.cursor 1).At l r.tail := by
  have hc := h.cursor
  have hl := h.line
  unfold Ed.delete
  cases r with
  | nil =>
    rw [if_pos]
    · exact h
    · right; rw [h.len, hc]; simp; omega
  | cons u r =>
    rw [if_neg]
    · refine ⟨?_, ?_⟩
      · dsimp only
        rw [h.toNat, hl]
        simp
      · exact hc
    · rw [not_or]
      refine ⟨by omega, ?_⟩
      rw [h.len, hc]; simp; omega

theorem At.killLine (h : e.At l r) : (Ed.killLine L e).At l [] :=
  ⟨by simp [Ed.killLine, h.take], h.cursor⟩

theorem delete_clip {p n : Int} : (e.delete p n).clip = e.clip := by unfold Ed.delete; split <;> rfl
theorem delete_cursor {p n : Int} : (e.delete p n).cursor = e.cursor := by unfold Ed.delete; split <;> rfl
theorem delete_pending {p n : Int} : (e.delete p n).pending = e.pending := by unfold Ed.delete; split <;> rfl

theorem backspace_clip : (Ed.backspace L e).clip = e.clip := by
  unfold Ed.backspace; split
  · rw [predict_clip, delete_clip]
  · rfl
theorem backspace_pending : (Ed.backspace L e).pending = e.pending := by
  unfold Ed.backspace; split
  · rw [predict_pending, delete_pending]
  · rfl

/-- Deleting the units between `p` and the cursor. -/
theorem delete_left {m : List Moji} (h : e.At (l ++ m) r) :
    (e.delete l.length (e.cursor - l.length)).line = l ++ r := by
  have hc := h.cursor
  have hl := h.line
  unfold Ed.delete
  by_cases hm : m = []
  · subst hm
    rw [if_pos]
    · rw [hl]; simp
    · left; rw [hc]; simp
  · have hpos : 0 < m.length := List.length_pos_iff.mpr hm
    rw [if_neg]
    · dsimp only
      have : ((l.length : Int).toNat + (e.cursor - l.length).toNat) = (l ++ m).length := by
        rw [hc]; simp; omega
      rw [this, hl, List.drop_left]
      simp
    · rw [not_or, h.len, hc]
      simp
      omega

theorem At.replace {m : List Moji} {t : Bytes} (h : e.At (l ++ m) r) :
    (Ed.replace L e l.length t).At (l ++ segs L.cfg t) r := by
  unfold Ed.replace
  dsimp only
  apply At.predict
  refine ⟨?_, ?_⟩
  · dsimp only
    simp only [Ed.insert]
    rw [delete_left h]
    simp
  · dsimp only
    simp

theorem At.typeTail {t : Bytes} (h : e.At l r) : (Ed.typeTail L e t).At (l ++ segs L.cfg t) r := by
  unfold Ed.typeTail
  dsimp only
  apply At.predict
  refine ⟨?_, ?_⟩
  · simp only [Ed.insert]
    rw [h.take, h.drop]
  · dsimp only
    rw [h.cursor]; simp

end Ed
end Readline

namespace Readline.Ed
variable {L : Logic} {e : Ed} {l r : List Moji}

theorem wordTop_bounds (l : List Moji) (n : Int) (h0 : 0 ≤ n) (hn : n ≤ l.length) :
    0 ≤ wordTop L l n ∧ wordTop L l n ≤ n := by
  unfold wordTop
  have := wordTopLoop_bounds L.delimiters (mojis2cells (l.take n.toNat)) 0 (-1) 0
    (Int.le_refl _) (by omega)
  have hl : (mojis2cells (l.take n.toNat)).length = n.toNat := by
    simp [mojis2cells, List.length_take]; omega
  rw [hl] at this
  dsimp only
  split <;> omega

/-- Where UnixWordRubout cuts the units before the cursor. -/
def rubPos (L : Logic) (l : List Moji) : Nat := (wordTop L l (skipSpaces l l.length)).toNat

theorem At.wordRubout (h : e.At l r) :
    (Ed.wordRubout L e).At (l.take (rubPos L l)) r ∧
    (Ed.wordRubout L e).clip = L.clipSet e.clip (lineText (l.drop (rubPos L l))) ∧
    (Ed.wordRubout L e).pending = e.pending := by
  have hsk : skipSpaces e.line e.cursor.toNat = skipSpaces l l.length := by
    unfold skipSpaces
    rw [h.take, List.take_length]
  have hle := skipSpaces_le l l.length
  have hwt : wordTop L e.line (skipSpaces l l.length) = wordTop L l (skipSpaces l l.length) := by
    unfold wordTop
    rw [h.line, Int.toNat_natCast, List.take_append_of_le_length hle]
  have hbd := wordTop_bounds (L := L) l (skipSpaces l l.length) (by omega) (by omega)
  have hpos : (rubPos L l : Int) = wordTop L l (skipSpaces l l.length) := by
    unfold rubPos; omega
  have hlt : (l.take (rubPos L l)).length = rubPos L l := by
    rw [List.length_take]; omega
  unfold Ed.wordRubout
  dsimp only
  rw [hsk, hwt, ← hpos]
  refine ⟨?_, ?_, ?_⟩
  · apply At.predict
    refine ⟨?_, ?_⟩
    · dsimp only
      have hx : Ed.At e (l.take (rubPos L l) ++ l.drop (rubPos L l)) r := by
        rw [List.take_append_drop]; exact h
      have := delete_left (hx.setClip (c := L.clipSet e.clip
        (lineText ((e.line.take e.cursor.toNat).drop (rubPos L l : Int).toNat))))
      rw [hlt] at this
      exact this
    · dsimp only
      rw [hlt]
  · rw [predict_clip, delete_clip]
    dsimp only
    rw [h.take, Int.toNat_natCast]
  · rw [predict_pending, delete_pending]

end Readline.Ed
