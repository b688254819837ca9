import Verif.Proof.Slice
import Verif.Props.C05
/-!
# C07: InsertString and Delete are exact splices
-/
namespace Readline
open Spec

/-- `InsertString(pos, str)` with `0 ≤ pos ≤ len`: the units of `str` stand between the cells
before `pos` and those from `pos` on; only the undo stack (one entry) changes besides. -/
theorem C07_insert (E : Env) (s : St) (pos : Nat) (str : Bytes) (h : pos ≤ s.buf.length) :
    ∃ s' ins, insertString E s pos str = .ok (s', ins) ∧
      ins.map Cell.moji = stringToMoji E.cfg str ∧
      s' = { s with
        buf := s.buf.take pos ++ ins ++ s.buf.drop pos,
        undoes := { pos := pos, del := ins.length, text := [] } :: s.undoes } := by
  refine ⟨_, mojis2cells (stringToMoji E.cfg str), ?_, by simp [mojis2cells, Function.comp_def], rfl⟩
  unfold insertString insertCells bufInsert
  have : (0 : Int) ≤ pos ∧ (pos : Int) ≤ s.len := ⟨by omega, by simp [St.len]; omega⟩
  simp only [this, and_self, if_true, Int.toNat_natCast, sliceInsert_eq _ _ _ h]
  rfl

/-- Out of range, `InsertString` panics (it is an API misuse). -/
theorem C07_insert_out_of_range (E : Env) (s : St) (pos : Int) (str : Bytes)
    (h : pos < 0 ∨ s.buf.length < pos) :
    insertString E s pos str = .error ⟨.bounds, s⟩ := by
  unfold insertString insertCells bufInsert
  have : ¬ (0 ≤ pos ∧ pos ≤ s.len) := by simp [St.len]; omega
  simp only [this, if_false]
  rfl

/-- In terms of texts: for valid text without join controls the new line is
`before ++ str ++ after`. -/
theorem C07_insert_text (E : Env) (s : St) (pos : Nat) (cs : List Char) (h : pos ≤ s.buf.length)
    (hc : E.cfg.zwjOk = false ∨ ('‌' ∉ cs ∧ cs.getLast? ≠ some '‍')) :
    ∃ s' ins, insertString E s pos (utf8 cs) = .ok (s', ins) ∧
      s'.text = cell2string (s.buf.take pos) ++ utf8 cs ++ cell2string (s.buf.drop pos) := by
  obtain ⟨s', ins, he, hm, rfl⟩ := C07_insert E s pos (utf8 cs) h
  refine ⟨_, ins, he, ?_⟩
  have : cell2string ins = utf8 cs := by
    rw [← C05_partial E.cfg cs hc, ← hm, cell2string, List.flatMap_map]
  simp [St.text, cell2string] at this ⊢
  exact this

/-- `Delete(pos, n)` of a range that fits removes exactly the cells `pos .. pos+n-1` and
returns their width. -/
theorem C07_delete (E : Env) (s : St) (pos n : Nat) (hn : 0 < n) (h : pos + n ≤ s.buf.length) :
    deleteCells E s pos n = .ok ({ s with
        buf := s.buf.take pos ++ s.buf.drop (pos + n),
        undoes := { pos := pos, del := 0, text := cell2string ((s.buf.drop pos).take n) } :: s.undoes },
      (((s.buf.drop pos).take n).map (fun c => c.moji.width E.cfg)).sum) := by
  unfold deleteCells
  rw [if_neg (by simp [St.len]; omega)]
  have hsl := slice_eq (s := s) (l := s.buf) (lo := pos) (hi := pos + n) (by omega) (by omega) (by omega)
  rw [hsl]
  unfold bufDelete
  have hc : (0 : Int) ≤ pos ∧ (pos : Int) + (n : Int).toNat ≤ s.len := by
    simp [St.len]; omega
  have ht : ((pos : Int) + n).toNat = pos + n := by omega
  simp only [Int.toNat_natCast, St.len] at hc ⊢
  simp only [ht, bind, Except.bind, hc, and_self, if_true]
  rw [sliceDelete_eq _ _ _ h, List.drop_take, Nat.add_sub_cancel_left]
  rfl

/-- A range that is empty or does not fit leaves everything as it was. -/
theorem C07_delete_noop (E : Env) (s : St) (pos n : Int) (h : n ≤ 0 ∨ s.buf.length < pos + n) :
    deleteCells E s pos n = .ok (s, 0) := by
  unfold deleteCells
  rw [if_pos (show n ≤ 0 ∨ s.len < pos + n from h)]
  rfl

/-- A small environment for examples. -/
def env0 : Env where
  cfg := cfgPlain
  globalKeyMap := none

/-- The line `ab` with the cursor at its end. -/
def stAB : St := { buf := mojis2cells [.raw 97, .raw 98], cursor := 2 }

/-- Non-vacuity: inserting `x` between `a` and `b`, and deleting `a`. -/
example : (insertString env0 stAB 1 (utf8 ['x'])).toOption.map (fun p => p.1.text) = some (utf8 ['a', 'x', 'b']) := by
  decide +kernel
example : (deleteCells env0 stAB 0 1).toOption.map (fun p => (p.1.text, p.2)) = some (utf8 ['b'], 1) := by
  decide +kernel
example : (1 : Nat) ≤ stAB.buf.length ∧ 0 + 1 ≤ stAB.buf.length := by decide

end Readline
