import Verif.Proof.Units
import Verif.Proof.SafeCall
import Verif.Proof.Session
/-!
# The undo log

Every entry of the undo log describes the line before an edit in terms of the line after it.
`UndoLog us l hs` says that undoing the entries `us` one after the other, starting from the line
`l`, gives the lines `hs`, and that each entry fits the line it is applied to.
-/
namespace Readline
open Spec

/-- Only the first unit of the line starts with an attaching code point, if any. -/
def TailTidy (C : Cfg) (l : List Moji) : Prop := ∀ m ∈ l.tail, ¬ Orphan C m

/-- The line an undo entry describes, in terms of the line after the edit. -/
def undoLine (C : Cfg) (u : Undo) (l : List Moji) : List Moji :=
  l.take u.pos.toNat ++ segs C u.text ++ l.drop (u.pos.toNat + u.del)

def UndoLog (C : Cfg) : List Undo → List Moji → List (List Moji) → Prop
  | [], _, [] => True
  | u :: us, l, h :: hs => u.fits l.length ∧ h = undoLine C u l ∧ UndoLog C us h hs
  | _, _, _ => False

theorem UndoLog.length {C : Cfg} {us : List Undo} {l : List Moji} {hs : List (List Moji)}
    (h : UndoLog C us l hs) : us.length = hs.length := by
  induction us generalizing l hs with
  | nil => cases hs with
    | nil => rfl
    | cons => exact h.elim
  | cons u us ih => cases hs with
    | nil => exact h.elim
    | cons x hs => simp [ih h.2.2]

theorem segs_slice {C : Cfg} {l : List Moji} (hb : ∀ m ∈ l, Built C m) (ht : TailTidy C l)
    (p n : Nat) : segs C (lineText ((l.drop p).take n)) = (l.drop p).take n := by
  have hb' : ∀ m ∈ (l.drop p).take n, Built C m :=
    fun m hm => hb m (List.mem_of_mem_drop (List.mem_of_mem_take hm))
  have ht' : ∀ m ∈ ((l.drop p).take n).tail, ¬ Orphan C m := by
    intro m hm
    apply ht
    rw [← List.drop_one] at hm ⊢
    have h1 : m ∈ (l.drop p).drop 1 := by
      rw [List.drop_take] at hm
      exact List.mem_of_mem_take hm
    rw [List.drop_drop, Nat.add_comm, ← List.drop_drop] at h1
    exact List.mem_of_mem_drop h1
  cases hc : (l.drop p).take n with
  | nil => exact segs_nil C
  | cons m r =>
    rw [hc] at hb' ht'
    exact segs_lineText' m r hb' ht'

theorem segs_drop {C : Cfg} {l : List Moji} (hb : ∀ m ∈ l, Built C m) (ht : TailTidy C l)
    (p : Nat) : segs C (lineText (l.drop p)) = l.drop p := by
  have := segs_slice hb ht p (l.drop p).length
  rwa [List.take_length] at this

theorem segs_line {C : Cfg} {l : List Moji} (hb : ∀ m ∈ l, Built C m) (ht : TailTidy C l) :
    segs C (lineText l) = l := segs_drop hb ht 0

theorem segs_get {C : Cfg} {l : List Moji} (hb : ∀ m ∈ l, Built C m) (p : Nat) :
    segs C (lineText ((l.drop p).take 1)) = (l.drop p).take 1 := by
  cases hc : l.drop p with
  | nil => exact segs_nil C
  | cons m r =>
    have : Built C m := hb m (List.mem_of_mem_drop (by rw [hc]; simp))
    exact segs_lineText' m [] (by simpa using this) (by simp)

namespace Ed

/-- An insertion can be undone. -/
theorem insert_log {L : Logic} {e : Ed} {hs : List (List Moji)} (pos : Int) (t : Bytes)
    (h0 : 0 ≤ pos) (h1 : pos ≤ e.line.length) (h : UndoLog L.cfg e.undoes e.line hs) :
    UndoLog L.cfg (e.insert L pos t).undoes (e.insert L pos t).line (e.line :: hs) := by
  refine ⟨⟨h0, ?_⟩, ?_, h⟩
  · simp only [insert, List.length_append, List.length_take, List.length_drop]
    omega
  · have hl : (e.line.take pos.toNat).length = pos.toNat := by simp; omega
    simp only [undoLine, insert, segs_nil, List.append_nil, List.append_assoc]
    rw [List.take_append_of_le_length (by omega), List.take_of_length_le (by omega),
      List.drop_append, List.drop_eq_nil_of_le (by omega), List.nil_append, hl]
    rw [show pos.toNat + (segs L.cfg t).length - pos.toNat = (segs L.cfg t).length by omega,
      List.drop_append, List.drop_length, Nat.sub_self]
    simp

/-- A deletion can be undone if the deleted text is cut the same way again. -/
theorem delete_log' {L : Logic} {e : Ed} {hs : List (List Moji)} (pos n : Int)
    (h0 : 0 ≤ pos)
    (hc : segs L.cfg (lineText ((e.line.drop pos.toNat).take n.toNat))
      = (e.line.drop pos.toNat).take n.toNat)
    (h : UndoLog L.cfg e.undoes e.line hs) :
    (e.delete pos n = e ∨
      UndoLog L.cfg (e.delete pos n).undoes (e.delete pos n).line (e.line :: hs)) := by
  unfold delete
  split
  · exact Or.inl rfl
  · rename_i hn
    right
    simp only [not_or, Int.not_le, Int.not_lt, len] at hn
    refine ⟨⟨h0, ?_⟩, ?_, h⟩
    · simp only [List.length_append, List.length_take, List.length_drop]; omega
    · have hl : (e.line.take pos.toNat).length = pos.toNat := by simp; omega
      simp only [undoLine, hc, Nat.add_zero]
      have e1 : (e.line.take pos.toNat ++ e.line.drop (pos.toNat + n.toNat)).take pos.toNat
          = e.line.take pos.toNat := by
        rw [List.take_append_of_le_length (by omega), List.take_of_length_le (by omega)]
      have e2 : (e.line.take pos.toNat ++ e.line.drop (pos.toNat + n.toNat)).drop pos.toNat
          = e.line.drop (pos.toNat + n.toNat) := by
        rw [List.drop_append, List.drop_eq_nil_of_le (by omega), List.nil_append, hl, Nat.sub_self,
          List.drop_zero]
      rw [e1, e2, List.append_assoc, ← List.drop_drop, List.take_append_drop,
        List.take_append_drop]

/-- Joining the last two entries keeps the log valid: the newer one is an insertion. -/
theorem joinUndoes_log {C : Cfg} {u2 : Undo} {us : List Undo} {l h : List Moji}
    {hs : List (List Moji)} (ht : u2.text = [])
    (hl : UndoLog C (u2 :: us) l (h :: hs)) :
    (joinUndoes (u2 :: us) = u2 :: us) ∨
      (hs ≠ [] ∧ UndoLog C (joinUndoes (u2 :: us)) l hs) := by
  cases us with
  | nil => exact Or.inl rfl
  | cons u1 rest =>
    rw [joinUndoes]
    split
    · exact Or.inl rfl
    · rename_i hp
      split
      · exact Or.inl rfl
      · split
        · exact Or.inl rfl
        · rename_i hd
          right
          obtain ⟨f2, e2, hl⟩ := hl
          cases hs with
          | nil => exact hl.elim
          | cons h0 hs =>
            obtain ⟨f1, e1, hl⟩ := hl
            refine ⟨by simp, ?_⟩
            have hp : u1.pos = u2.pos := Decidable.not_not.mp hp
            obtain ⟨f2a, f2b⟩ := f2
            obtain ⟨f1a, f1b⟩ := f1
            have hlen : (l.take u2.pos.toNat).length = u2.pos.toNat := by
              simp; omega
            have e2' : h = l.take u2.pos.toNat ++ l.drop (u2.pos.toNat + u2.del) := by
              rw [e2, undoLine, ht, segs_nil, List.append_nil]
            have e1' : h0 = l.take u2.pos.toNat ++ segs C u1.text
                ++ l.drop (u2.pos.toNat + u2.del + u1.del) := by
              rw [e1, undoLine, hp, e2', List.take_append_of_le_length (by omega),
                List.take_of_length_le (by omega), List.drop_append,
                List.drop_eq_nil_of_le (by omega), hlen, List.nil_append, List.drop_drop]
              congr 2
              omega
            have hlh : h.length + u2.del = l.length := by
              rw [e2']; simp; omega
            have htx : (if u1.text = [] then u2.text else u1.text) = u1.text := by
              split
              · rename_i hx; rw [hx, ht]
              · rfl
            have hdel : (if u1.del = 0 then u2.del else u1.del) = u2.del + u1.del := by
              split <;> omega
            simp only [htx, hdel]
            refine ⟨⟨f1a, ?_⟩, ?_, hl⟩
            · simp only; omega
            · rw [e1', undoLine]
              simp only [hp, Nat.add_assoc]

end Ed
end Readline
