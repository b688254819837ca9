import Verif.Proof.UndoLog
import Verif.Spec.Undo
/-!
# Every built-in command keeps the undo log valid
-/
namespace Readline
open Spec

namespace Ed

/-- The line consists of whole units and the undo log is valid. -/
structure Inv (L : Logic) (e : Ed) (hs : List (List Moji)) : Prop where
  built : ∀ m ∈ e.line, Built L.cfg m
  log : UndoLog L.cfg e.undoes e.line hs

@[simp] theorem predict_line (L : Logic) (e : Ed) : (predict L e).line = e.line := by
  unfold predict; repeat' split
  all_goals rfl
@[simp] theorem predict_undoes (L : Logic) (e : Ed) : (predict L e).undoes = e.undoes := by
  unfold predict; repeat' split
  all_goals rfl
@[simp] theorem predict_cursor (L : Logic) (e : Ed) : (predict L e).cursor = e.cursor := by
  unfold predict; repeat' split
  all_goals rfl
@[simp] theorem predict_histPtr (L : Logic) (e : Ed) : (predict L e).histPtr = e.histPtr := by
  unfold predict; repeat' split
  all_goals rfl
@[simp] theorem predict_modHist (L : Logic) (e : Ed) : (predict L e).modHist = e.modHist := by
  unfold predict; repeat' split
  all_goals rfl
@[simp] theorem predict_clip (L : Logic) (e : Ed) : (predict L e).clip = e.clip := by
  unfold predict; repeat' split
  all_goals rfl
@[simp] theorem predict_input (L : Logic) (e : Ed) : (predict L e).input = e.input := by
  unfold predict; repeat' split
  all_goals rfl
@[simp] theorem predict_pending (L : Logic) (e : Ed) : (predict L e).pending = e.pending := by
  unfold predict; repeat' split
  all_goals rfl

theorem insert_built {L : Logic} {e : Ed} (pos : Int) (t : Bytes)
    (h : ∀ m ∈ e.line, Built L.cfg m) : ∀ m ∈ (e.insert L pos t).line, Built L.cfg m := by
  intro m hm
  simp only [insert, List.mem_append] at hm
  rcases hm with (hm | hm) | hm
  · exact h m (List.mem_of_mem_take hm)
  · exact segs_built _ _ m hm
  · exact h m (List.mem_of_mem_drop hm)

theorem delete_line_sub (e : Ed) (pos n : Int) : ∀ m ∈ (e.delete pos n).line, m ∈ e.line := by
  intro m hm
  unfold delete at hm
  split at hm
  · exact hm
  · simp only [List.mem_append] at hm
    rcases hm with hm | hm
    · exact List.mem_of_mem_take hm
    · exact List.mem_of_mem_drop hm

/-- Deleting one unit. -/
theorem delete_one {L : Logic} {e : Ed} {hs : List (List Moji)} (h : Inv L e hs) (pos : Int)
    (h0 : 0 ≤ pos) :
    (e.delete pos 1 = e) ∨ (Inv L (e.delete pos 1) (e.line :: hs)) := by
  rcases delete_log' (L := L) pos 1 h0 (segs_get h.built pos.toNat) h.log with h1 | h1
  · exact Or.inl h1
  · exact Or.inr ⟨fun m hm => h.built m (delete_line_sub e pos 1 m hm), h1⟩

theorem delete_tidy {L : Logic} {e : Ed} {hs : List (List Moji)} (h : Inv L e hs)
    (ht : TailTidy L.cfg e.line) (pos n : Int) (h0 : 0 ≤ pos) :
    (e.delete pos n = e) ∨ (Inv L (e.delete pos n) (e.line :: hs)) := by
  rcases delete_log' (L := L) pos n h0 (segs_slice h.built ht pos.toNat n.toNat) h.log with h1 | h1
  · exact Or.inl h1
  · exact Or.inr ⟨fun m hm => h.built m (delete_line_sub e pos n m hm), h1⟩

theorem backspace_inv {L : Logic} {e : Ed} {hs : List (List Moji)} (h : Inv L e hs) :
    ((backspace L e).line = e.line ∧ Inv L (backspace L e) hs)
      ∨ ((∃ i, (backspace L e).line = e.line.eraseIdx i) ∧ Inv L (backspace L e) (e.line :: hs)) := by
  unfold backspace
  split
  · rename_i hc
    have hi : Inv L { e with cursor := e.cursor - 1 } hs := ⟨h.built, h.log⟩
    rcases delete_one hi (e.cursor - 1) (by omega) with h1 | h1
    · left
      rw [h1]
      exact ⟨by simp, ⟨by simpa using h.built, by simpa using h.log⟩⟩
    · by_cases hd : delete { e with cursor := e.cursor - 1 } (e.cursor - 1) 1
          = { e with cursor := e.cursor - 1 }
      · left
        rw [hd]
        exact ⟨by simp, ⟨by simpa using h.built, by simpa using h.log⟩⟩
      · right
        refine ⟨⟨(e.cursor - 1).toNat, ?_⟩, ⟨by simpa using h1.built, by simpa using h1.log⟩⟩
        rw [predict_line]
        unfold delete at hd ⊢
        split
        · rename_i hx; rw [if_pos hx] at hd; exact absurd rfl hd
        · rw [List.eraseIdx_eq_take_drop_succ]
          rfl
  · exact Or.inl ⟨rfl, h⟩

theorem typeTail_inv {L : Logic} {e : Ed} {hs : List (List Moji)} (t : Bytes) (h : Inv L e hs)
    (h0 : 0 ≤ e.cursor) (h1 : e.cursor ≤ e.line.length) : Inv L (typeTail L e t) (e.line :: hs) := by
  unfold typeTail
  refine ⟨?_, ?_⟩
  · rw [predict_line]; exact insert_built e.cursor t h.built
  · rw [predict_line, predict_undoes]; exact insert_log e.cursor t h0 h1 h.log

theorem backspace_cursor {L : Logic} {e : Ed} (h0 : 0 ≤ e.cursor) (h1 : e.cursor ≤ e.line.length) :
    0 ≤ (backspace L e).cursor ∧ (backspace L e).cursor ≤ (backspace L e).line.length := by
  unfold backspace
  split
  · unfold delete
    split
    · rename_i hx
      simp only [predict_line, predict_cursor, len] at *
      omega
    · rename_i hx
      simp only [predict_line, predict_cursor, List.length_append, List.length_take,
        List.length_drop] at *
      omega
  · exact ⟨h0, h1⟩

theorem type_inv {L : Logic} {e : Ed} {hs : List (List Moji)} (k : Bytes) (c : Cmd) (hty : types c) (h : Inv L e hs)
    (h0 : 0 ≤ e.cursor) (h1 : e.cursor ≤ e.line.length) :
    ∃ hs', Inv L (type L e k) hs' ∧ Snap c e.line hs (type L e k).line hs' := by
  have hm : movesOnly c = false := by cases c <;> first | rfl | exact hty.elim
  have hu : c ≠ .undo := by rintro rfl; exact hty
  unfold type
  dsimp only
  split
  · generalize (e.line[(e.cursor - 1).toNat]?).elim [] Moji.write ++ stripAlt k = pd
    rcases backspace_inv (e := { e with pending := pd }) ⟨h.built, h.log⟩
      with ⟨hl, hi⟩ | ⟨⟨i, hl⟩, hi⟩
    · exact ⟨hs, hi, .keep hl (fun h => absurd h hu)⟩
    · exact ⟨_, hi, .push hm hu⟩
  · split
    · have hc := backspace_cursor (L := L) h0 h1
      rcases backspace_inv h with ⟨hl, hi⟩ | ⟨⟨i, hl⟩, hi⟩
      · have hi' := typeTail_inv ((e.line[(e.cursor - 1).toNat]?).elim [] Moji.write ++ stripAlt k)
          hi hc.1 hc.2
        rw [hl] at hi'
        exact ⟨_, hi', .push hm hu⟩
      · have hi' := typeTail_inv ((e.line[(e.cursor - 1).toNat]?).elim [] Moji.write ++ stripAlt k)
          hi hc.1 hc.2
        exact ⟨_, hi', by rw [hl]; exact .pushJoin hty⟩
    · split
      · exact ⟨_, typeTail_inv (e := { e with pending := [] }) _ ⟨h.built, h.log⟩ h0 h1,
          .push hm hu⟩
      · exact ⟨_, typeTail_inv _ h h0 h1, .push hm hu⟩

theorem delete_zero (e : Ed) (p n : Int) (h : n ≤ 0) : e.delete p n = e := by
  unfold delete; rw [if_pos (Or.inl h)]

/-- Inserting at the cursor through `ReplaceAndRepaint`. -/
theorem replace_inv {L : Logic} {e : Ed} {hs : List (List Moji)} (t : Bytes) (h : Inv L e hs)
    (h0 : 0 ≤ e.cursor) (h1 : e.cursor ≤ e.line.length) :
    (replace L e e.cursor t).line
        = e.line.take e.cursor.toNat ++ segs L.cfg t ++ e.line.drop e.cursor.toNat ∧
    (Inv L (replace L e e.cursor t) (e.line :: hs) ∨
      (hs ≠ [] ∧ Inv L (replace L e e.cursor t) hs)) := by
  unfold replace
  rw [delete_zero e e.cursor (e.cursor - e.cursor) (by omega)]
  refine ⟨by simp [insert], ?_⟩
  have hl := insert_log e.cursor t h0 h1 h.log
  have hb := insert_built e.cursor t h.built
  rcases joinUndoes_log (C := L.cfg) (u2 := ⟨e.cursor, (segs L.cfg t).length, []⟩) (us := e.undoes) rfl hl with hj | ⟨hn, hj⟩
  · left
    refine ⟨by simpa using hb, ?_⟩
    rw [predict_line, predict_undoes]
    show UndoLog L.cfg (joinUndoes (_ :: e.undoes)) _ _
    rw [hj]
    exact hl
  · right
    refine ⟨hn, by simpa using hb, ?_⟩
    rw [predict_line, predict_undoes]
    exact hj

theorem replace_snap {L : Logic} {e : Ed} {hs : List (List Moji)} (t : Bytes) (h : Inv L e hs)
    (h0 : 0 ≤ e.cursor) (h1 : e.cursor ≤ e.line.length) (c : Cmd)
    (hc : c = .yank ∨ c = .yankWithQuote ∨ c = .forwardChar) :
    ∃ hs', Inv L (replace L e e.cursor t) hs' ∧ Snap c e.line hs (replace L e e.cursor t).line hs' := by
  obtain ⟨hl, hi | ⟨hn, hi⟩⟩ := replace_inv t h h0 h1
  · exact ⟨_, hi, .push (by rcases hc with rfl | rfl | rfl <;> rfl) (by rcases hc with rfl | rfl | rfl <;> simp)⟩
  · exact ⟨_, hi, .merge hc hn ⟨_, _, hl⟩⟩

/-- Replacing the units before the cursor from `pos` on. -/
theorem replace_push {L : Logic} {e : Ed} {hs : List (List Moji)} (t : Bytes) (h : Inv L e hs)
    (ht : TailTidy L.cfg e.line) (pos : Nat) (h0 : (pos : Int) < e.cursor) (h1 : e.cursor ≤ e.line.length) :
    Inv L (replace L e pos t) (e.line :: hs) := by
  have hd : e.delete pos (e.cursor - pos) = { e with
      line := e.line.take (pos : Int).toNat ++ e.line.drop ((pos : Int).toNat + (e.cursor - pos).toNat)
      undoes := { pos := pos, del := 0
                  text := lineText ((e.line.drop (pos : Int).toNat).take (e.cursor - pos).toNat) } :: e.undoes } := by
    unfold delete
    rw [if_neg]
    simp only [len]
    omega
  have hk : Inv L (e.delete pos (e.cursor - pos)) (e.line :: hs) := by
    rcases delete_tidy h ht pos (e.cursor - pos) (by omega) with hx | hx
    · rw [hx] at hd
      have := congrArg (fun e : Ed => e.undoes.length) hd
      simp at this
    · exact hx
  have hlen : (pos : Int) ≤ (e.delete pos (e.cursor - pos)).line.length := by
    rw [hd]; simp; omega
  have hl := insert_log (L := L) (pos : Int) t (by omega) hlen hk.log
  have hb := insert_built (L := L) (pos : Int) t hk.built
  unfold replace
  refine ⟨by simpa using hb, ?_⟩
  rw [predict_line, predict_undoes]
  rcases joinUndoes_log (C := L.cfg) (u2 := ⟨pos, (segs L.cfg t).length, []⟩)
    (us := (e.delete pos (e.cursor - pos)).undoes) rfl hl with hj | ⟨-, hj⟩
  · rw [hd] at hj
    simp [joinUndoes] at hj
  · exact hj

theorem killWhole_inv {L : Logic} {e : Ed} {hs : List (List Moji)} (h : Inv L e hs)
    (ht : TailTidy L.cfg e.line) : Inv L (killWhole e) (e.line :: hs) := by
  refine ⟨by simp [killWhole], ⟨⟨by simp, by simp [killWhole]⟩, ?_, h.log⟩⟩
  simp [killWhole, undoLine, text, segs_line h.built ht]

theorem showHist_inv {L : Logic} {e : Ed} {hs : List (List Moji)} (c : Cmd) (hh : c = .previousHistory ∨ c = .nextHistory)
    (h : Inv L e hs) (ht : TailTidy L.cfg e.line) :
    ∃ hs', Inv L (showHist L e) hs' ∧ Snap c e.line hs (showHist L e).line hs' := by
  have hk := killWhole_inv h ht
  unfold showHist
  dsimp only
  split
  · refine ⟨[] :: e.line :: hs, ⟨insert_built 0 _ hk.built, ?_⟩, ?_⟩
    · exact insert_log 0 _ (by simp) (by simp) hk.log
    · exact .pushEmpty hh
  · exact ⟨_, hk, .push (by rcases hh with rfl | rfl <;> rfl) (by rcases hh with rfl | rfl <;> simp)⟩

theorem killLine_inv {L : Logic} {e : Ed} {hs : List (List Moji)} (h : Inv L e hs)
    (ht : TailTidy L.cfg e.line) (h0 : 0 ≤ e.cursor) (h1 : e.cursor ≤ e.line.length) :
    Inv L (killLine L e) (e.line :: hs) := by
  refine ⟨fun m hm => h.built m (List.mem_of_mem_take hm), ⟨⟨h0, ?_⟩, ?_, h.log⟩⟩
  · simp [killLine]; omega
  · simp only [killLine, undoLine, segs_drop h.built ht, Nat.add_zero]
    rw [List.take_take, Nat.min_self, List.drop_take, Nat.sub_self, List.take_zero, List.append_nil,
      List.take_append_drop]

theorem swapAt_eq {l : List α} {i : Nat} (h : i + 1 < l.length) :
    ∃ a b, (l.drop i).take 2 = [a, b] ∧ swapAt l i = l.take i ++ [b, a] ++ l.drop (i + 2) := by
  have h' : i < l.length := by omega
  refine ⟨l[i], l[i + 1], ?_, ?_⟩
  · rw [List.drop_eq_getElem_cons h', List.drop_eq_getElem_cons h]; rfl
  · have e1 : l = l.take i ++ l[i] :: l[i + 1] :: l.drop (i + 2) := by
      rw [← List.drop_eq_getElem_cons h, ← List.drop_eq_getElem_cons h', List.take_append_drop]
    have hl : (l.take i).length = i := by simp; omega
    unfold swapAt
    rw [List.getElem?_eq_getElem h', List.getElem?_eq_getElem h]
    dsimp only
    generalize l[i] = a at *
    generalize l[i + 1] = b at *
    conv => lhs; rw [e1]
    rw [List.set_append_right _ _ (by omega), hl, Nat.sub_self, List.set_append_right _ _ (by omega),
      hl, show i + 1 - i = 1 by omega]
    simp

theorem swap_inv {L : Logic} {e : Ed} {hs : List (List Moji)} (h : Inv L e hs)
    (ht : TailTidy L.cfg e.line) (h1 : e.cursor ≤ e.line.length)
    (hn : ¬ (e.cursor = e.line.length ∧ 2 ≤ e.line.length)) :
    ∃ hs', Inv L (swap e) hs' ∧ Snap .swapChar e.line hs (swap e).line hs' := by
  unfold swap
  split
  · rename_i hx
    split
    · exact ⟨hs, h, .keep rfl nofun⟩
    · simp only [len] at hx
      omega
  · rename_i hx
    simp only [len] at hx
    split
    · exact ⟨hs, h, .keep rfl nofun⟩
    · have hp : (e.cursor - 1).toNat + 1 < e.line.length := by omega
      obtain ⟨a, b, hab, hsw⟩ := swapAt_eq hp
      have hl : (e.line.take (e.cursor - 1).toNat).length = (e.cursor - 1).toNat := by simp; omega
      refine ⟨e.line :: hs, ⟨?_, ⟨⟨by dsimp only; omega, ?_⟩, ?_, h.log⟩⟩,
        .push rfl nofun⟩
      · intro m hm
        rw [show ({ e with
          undoes := { pos := e.cursor - 1, del := 2,
                      text := lineText ((e.line.drop (e.cursor - 1).toNat).take 2) } :: e.undoes
          line := swapAt e.line (e.cursor - 1).toNat
          cursor := e.cursor + 1 } : Ed).line = swapAt e.line (e.cursor - 1).toNat from rfl, hsw] at hm
        simp only [List.mem_append, List.mem_cons, List.not_mem_nil, or_false] at hm
        have hmem : ∀ x, x = a ∨ x = b → x ∈ e.line := by
          intro x hx
          have : x ∈ (e.line.drop (e.cursor - 1).toNat).take 2 := by
            rw [hab]; rcases hx with rfl | rfl <;> simp
          exact List.mem_of_mem_drop (List.mem_of_mem_take this)
        rcases hm with (hm | hm | hm) | hm
        · exact h.built m (List.mem_of_mem_take hm)
        · exact h.built m (hmem m (Or.inr hm))
        · exact h.built m (hmem m (Or.inl hm))
        · exact h.built m (List.mem_of_mem_drop hm)
      · simp only [swapAt_length]; omega
      · simp only [undoLine, segs_slice h.built ht, hsw, List.append_assoc]
        rw [List.take_append_of_le_length (by omega), List.take_of_length_le (by omega)]
        have hd : (e.line.take (e.cursor - 1).toNat ++ ([b, a] ++
            e.line.drop ((e.cursor - 1).toNat + 2))).drop ((e.cursor - 1).toNat + 2)
            = e.line.drop ((e.cursor - 1).toNat + 2) := by
          rw [List.drop_append, List.drop_eq_nil_of_le (by omega), List.nil_append, hl,
            show (e.cursor - 1).toNat + 2 - (e.cursor - 1).toNat = 2 by omega]
          rfl
        rw [hd, ← List.drop_drop, List.take_append_drop, List.take_append_drop]

theorem undo_inv {L : Logic} {e : Ed} {hs : List (List Moji)} (h : Inv L e hs) :
    ∃ hs', Inv L (undo L e) hs' ∧ Snap .undo e.line hs (undo L e).line hs' ∧ hs' = hs.tail ∧
      (undo L e).line = hs.headD e.line := by
  unfold undo
  have hlog := h.log
  cases hu : e.undoes with
  | nil =>
    rw [hu] at hlog
    cases hs with
    | nil => exact ⟨[], h, .keep rfl (fun _ => rfl), rfl, rfl⟩
    | cons => exact hlog.elim
  | cons u rest =>
    rw [hu] at hlog
    cases hs with
    | nil => exact hlog.elim
    | cons x hs =>
      obtain ⟨⟨f1, f2⟩, e1, hl⟩ := hlog
      dsimp only
      have hlen : (e.line.take u.pos.toNat).length = u.pos.toNat := by simp; omega
      have hline : (if u.text ≠ [] then
          (if u.del > 0 then e.line.take u.pos.toNat ++ e.line.drop (u.pos.toNat + u.del)
             else e.line).take u.pos.toNat ++ segs L.cfg u.text ++
          (if u.del > 0 then e.line.take u.pos.toNat ++ e.line.drop (u.pos.toNat + u.del)
             else e.line).drop u.pos.toNat
          else (if u.del > 0 then e.line.take u.pos.toNat ++ e.line.drop (u.pos.toNat + u.del)
             else e.line)) = x := by
        rw [e1, undoLine]
        have ed : (if u.del > 0 then e.line.take u.pos.toNat ++ e.line.drop (u.pos.toNat + u.del)
             else e.line) = e.line.take u.pos.toNat ++ e.line.drop (u.pos.toNat + u.del) := by
          split
          · rfl
          · rw [show u.del = 0 by omega, Nat.add_zero, List.take_append_drop]
        rw [ed]
        split
        · rw [List.take_append_of_le_length (by omega), List.take_of_length_le (by omega),
            List.drop_append, List.drop_eq_nil_of_le (by omega), hlen, Nat.sub_self]
          rfl
        · rename_i ht
          rw [Decidable.not_not.mp ht, segs_nil, List.append_nil]
      have hx : ∀ m ∈ x, Built L.cfg m := by
        rw [e1]
        intro m hm
        simp only [undoLine, List.mem_append] at hm
        rcases hm with (hm | hm) | hm
        · exact h.built m (List.mem_of_mem_take hm)
        · exact segs_built _ _ m hm
        · exact h.built m (List.mem_of_mem_drop hm)
      have key : ∀ e' : Ed, e'.line = x → e'.undoes = rest →
          Inv L (predict L e') hs ∧ Snap .undo e.line (x :: hs) (predict L e').line hs ∧
            (predict L e').line = x := by
        intro e' h1 h2
        refine ⟨⟨by simpa [h1] using hx, by simpa [h1, h2] using hl⟩, ?_, by simpa using h1⟩
        rw [predict_line, h1]
        exact .undo rfl rfl
      split
      · rename_i ht
        rw [if_pos ht] at hline
        obtain ⟨a, b, c⟩ := key { e with undoes := rest, line := _, cursor := _ } hline rfl
        exact ⟨hs, a, b, rfl, c⟩
      · rename_i ht
        rw [if_neg ht] at hline
        obtain ⟨a, b, c⟩ := key { e with undoes := rest, line := _, cursor := _ } hline rfl
        exact ⟨hs, a, b, rfl, c⟩

theorem getKey_ed_fields (e : Ed) : (getKey e).2.line = e.line ∧ (getKey e).2.undoes = e.undoes ∧
    (getKey e).2.cursor = e.cursor ∧ (getKey e).2.histPtr = e.histPtr ∧
    (getKey e).2.modHist = e.modHist ∧ (getKey e).2.clip = e.clip ∧
    (getKey e).2.pending = e.pending ∧ (getKey e).2.suffix = e.suffix := by
  unfold getKey
  repeat' split
  all_goals exact ⟨rfl, rfl, rfl, rfl, rfl, rfl, rfl, rfl⟩

theorem searchLoop_inv {L : Logic} {hs : List (List Moji)} (n : Nat) (it : ISt) (e : Ed)
    (h : Inv L e hs) (ht : TailTidy L.cfg e.line) :
    ∃ hs', Inv L (searchLoop L n it e) hs' ∧
      Snap .isearchBackward e.line hs (searchLoop L n it e).line hs' := by
  induction n generalizing it e with
  | zero => exact ⟨hs, h, .keep rfl nofun⟩
  | succ n ih =>
    unfold searchLoop
    have hf := getKey_ed_fields e
    cases hk : getKey e with
    | mk k e' =>
      rw [hk] at hf
      obtain ⟨f1, f2, f3, f4, -⟩ := hf
      dsimp only at f1 f2 f3 f4
      have h' : Inv L e' hs := ⟨by rw [f1]; exact h.built, by rw [f1, f2]; exact h.log⟩
      have ht' : TailTidy L.cfg e'.line := by rw [f1]; exact ht
      have ih' : ∀ it, ∃ hs', Inv L (searchLoop L n it e') hs' ∧
          Snap .isearchBackward e.line hs (searchLoop L n it e').line hs' := by
        intro it
        rw [← f1]; exact ih it e' h' ht'
      cases k with
      | none => exact ⟨hs, h', .keep f1 nofun⟩
      | some key =>
        dsimp only
        split
        · exact ih' _
        split
        · have hk := killWhole_inv h' ht'
          have hl := insert_log (L := L) (e := killWhole e') 0 it.found (by simp) (by simp [killWhole])
            hk.log
          have hb := insert_built (L := L) (e := killWhole e') 0 it.found hk.built
          rcases joinUndoes_log (C := L.cfg) (u2 := ⟨0, (segs L.cfg it.found).length, []⟩) (us := (killWhole e').undoes) rfl hl with hj | ⟨hn, hj⟩
          · exfalso
            simp [joinUndoes, killWhole] at hj
          · refine ⟨e.line :: hs, ?_, .push rfl nofun⟩
            rw [← f1]
            unfold replace
            rw [delete_zero _ 0 _ (by simp)]
            refine ⟨by simpa [killWhole] using hb, ?_⟩
            rw [predict_line, predict_undoes]
            exact hj
        split
        · exact ⟨hs, h', .keep f1 nofun⟩
        split
        · exact ih' _
        split
        · exact ih' _
        split
        · exact ih' _
        · exact ih' _

theorem saveHist_fields (L : Logic) (e : Ed) : (saveHist L e).line = e.line ∧
    (saveHist L e).undoes = e.undoes ∧ (saveHist L e).cursor = e.cursor ∧
    (saveHist L e).histPtr = e.histPtr := by
  unfold saveHist
  split <;> exact ⟨rfl, rfl, rfl, rfl⟩

/-- Every built-in command keeps the undo log valid, unless it exchanges the last two units. -/
theorem call_inv {L : Logic} {e : Ed} {hs : List (List Moji)} {c : Cmd} (hb : c.builtin = true)
    (h : Inv L e hs) (h0 : 0 ≤ e.cursor) (h1 : e.cursor ≤ e.line.length)
    (ht : TailTidy L.cfg e.line)
    (hn : c = .swapChar → ¬ (e.cursor = e.line.length ∧ 2 ≤ e.line.length)) :
    ∃ hs', Inv L (call L c e).1 hs' ∧ Snap c e.line hs (call L c e).1.line hs' := by
  have same : c ≠ .undo → ∀ e' : Ed, e'.line = e.line → e'.undoes = e.undoes →
      ∃ hs', Inv L e' hs' ∧ Snap c e.line hs e'.line hs' := by
    intro hu e' a b
    exact ⟨hs, ⟨by rw [a]; exact h.built, by rw [a, b]; exact h.log⟩, .keep a (fun h => absurd h hu)⟩
  have push : movesOnly c = false → c ≠ .undo → ∀ e' : Ed, Inv L e' (e.line :: hs) →
      ∃ hs', Inv L e' hs' ∧ Snap c e.line hs e'.line hs' := by
    intro hm hu e' a
    exact ⟨_, a, .push hm hu⟩
  have pred : ∀ e' : Ed, ∀ hs', Inv L e' hs' → Inv L (predict L e') hs' := by
    intro e' hs' a
    exact ⟨by simpa using a.built, by simpa using a.log⟩
  have del1 : movesOnly c = false → c ≠ .undo → ∃ hs', Inv L (predict L (e.delete e.cursor 1)) hs' ∧
      Snap c e.line hs (predict L (e.delete e.cursor 1)).line hs' := by
    intro hm hu
    rcases delete_one h e.cursor h0 with a | a
    · rw [a]; exact same hu _ (by simp) (by simp)
    · exact push hm hu _ (pred _ _ a)
  cases c with
  | custom => simp [Cmd.builtin] at hb
  | completion P =>
    simp only [call]
    unfold complete
    cases hx : completionOf P.uni P.completer P.postfix_ ((e.line.take e.cursor.toNat).map Moji.write) with
    | crash | nothing => exact same nofun _ rfl rfl
    | bell l =>
      dsimp only
      split
      · exact same nofun _ (by simp) (by simp)
      · exact same nofun _ rfl rfl
    | insert pos t =>
      have hp := completionOf_pos hx
      simp only [List.length_map, List.length_take] at hp
      exact push rfl nofun _ (replace_push t h ht pos (by omega) h1)
  | acceptLine => exact same nofun _ rfl rfl
  | interrupt => exact ⟨[], ⟨by simp [call], by simp [call, UndoLog]⟩, .clear rfl⟩
  | beginningOfLine => exact same nofun _ (by simp [call]) (by simp [call])
  | backwardChar =>
    simp only [call]
    split
    · exact same nofun _ rfl rfl
    · exact same nofun _ (by simp) (by simp)
  | endOfLine => exact same nofun _ rfl rfl
  | forwardChar =>
    simp only [call]
    split
    · split
      · exact replace_snap _ h h0 h1 _ (Or.inr (Or.inr rfl))
      · exact same nofun _ rfl rfl
    · exact same nofun _ rfl rfl
  | backwardDeleteChar =>
    simp only [call]
    rcases backspace_inv h with ⟨a, b⟩ | ⟨_, b⟩
    · exact ⟨_, b, .keep a nofun⟩
    · exact push rfl nofun _ b
  | deleteChar => exact del1 rfl nofun
  | deleteOrAbort =>
    simp only [call]
    split
    · exact del1 rfl nofun
    · exact same nofun _ rfl rfl
  | killLine => exact push rfl nofun _ (killLine_inv h ht h0 h1)
  | killWholeLine => exact push rfl nofun _ (killWhole_inv h ht)
  | unixWordRubout =>
    simp only [call]
    unfold wordRubout
    dsimp only
    have hw : 0 ≤ wordTop L e.line (skipSpaces e.line e.cursor.toNat) := by
      unfold wordTop
      dsimp only
      split
      · omega
      · omega
    have hd := delete_tidy (e := { e with clip := L.clipSet e.clip (lineText
      ((e.line.take e.cursor.toNat).drop (wordTop L e.line (skipSpaces e.line e.cursor.toNat)).toNat)) })
      ⟨h.built, h.log⟩ ht _ (e.cursor - wordTop L e.line (skipSpaces e.line e.cursor.toNat)) hw
    rcases hd with a | a
    · rw [a]; exact same nofun _ (by simp) (by simp)
    · exact push rfl nofun _ (pred _ _ ⟨a.built, a.log⟩)
  | unixLineDiscard =>
    simp only [call]
    have hd := delete_tidy (e := { e with clip := L.clipSet e.clip (lineText
      (e.line.take e.cursor.toNat)) }) ⟨h.built, h.log⟩ ht 0 e.cursor (by simp)
    rcases hd with a | a
    · rw [a]; exact same nofun _ (by simp) (by simp)
    · exact push rfl nofun _ (pred _ _ ⟨a.built, a.log⟩)
  | clearScreen => exact same nofun _ (by simp [call]) (by simp [call])
  | repaintOnNewline => exact same nofun _ (by simp [call]) (by simp [call])
  | quotedInsert =>
    simp only [call]
    have hf := getKey_ed_fields e
    cases hk : getKey e with
    | mk k e' =>
      rw [hk] at hf
      obtain ⟨f1, f2, f3, f4, -⟩ := hf
      dsimp only at f1 f2 f3 f4
      cases k with
      | none => exact same nofun _ f1 f2
      | some k =>
        dsimp only
        have := type_inv (L := L) (e := e') (hs := hs) k .quotedInsert trivial
          ⟨by rw [f1]; exact h.built, by rw [f1, f2]; exact h.log⟩ (by omega) (by rw [f1]; omega)
        rwa [f1] at this
  | yank =>
    simp only [call]
    split
    · exact same nofun _ rfl rfl
    · exact replace_snap _ h h0 h1 _ (Or.inl rfl)
  | yankWithQuote =>
    simp only [call]
    split
    · exact same nofun _ rfl rfl
    · exact replace_snap _ h h0 h1 _ (Or.inr (Or.inl rfl))
  | swapChar => exact swap_inv h ht h1 (hn rfl)
  | backwardWord => exact same nofun _ (by simp [call]) (by simp [call])
  | forwardWord => exact same nofun _ rfl rfl
  | undo =>
    obtain ⟨hs', a, b, -⟩ := undo_inv h
    exact ⟨hs', a, b⟩
  | previousHistory =>
    simp only [call, prevHist]
    split
    · exact same nofun _ rfl rfl
    · split
      · exact same nofun _ rfl rfl
      · split
        · have hf := saveHist_fields L { e with histPtr := histLen L + 1 }
          have := showHist_inv (L := L) (e := { saveHist L { e with histPtr := histLen L + 1 } with
              histPtr := (saveHist L { e with histPtr := histLen L + 1 }).histPtr - 1 }) (hs := hs)
            .previousHistory (Or.inl rfl) ⟨by rw [hf.1]; exact h.built, by rw [hf.1, hf.2.1]; exact h.log⟩
            (by rw [hf.1]; exact ht)
          rw [hf.1] at this
          exact this
        · have hf := saveHist_fields L e
          have := showHist_inv (L := L) (e := { saveHist L e with
              histPtr := (saveHist L e).histPtr - 1 }) (hs := hs)
            .previousHistory (Or.inl rfl) ⟨by rw [hf.1]; exact h.built, by rw [hf.1, hf.2.1]; exact h.log⟩
            (by rw [hf.1]; exact ht)
          rw [hf.1] at this
          exact this
  | nextHistory =>
    simp only [call, nextHist]
    split
    · exact same nofun _ rfl rfl
    · split
      · exact same nofun _ rfl rfl
      · have hf := saveHist_fields L e
        have := showHist_inv (L := L) (e := { saveHist L e with
            histPtr := (saveHist L e).histPtr + 1 }) (hs := hs)
          .nextHistory (Or.inr rfl) ⟨by rw [hf.1]; exact h.built, by rw [hf.1, hf.2.1]; exact h.log⟩
          (by rw [hf.1]; exact ht)
        rw [hf.1] at this
        exact this
  | isearchBackward => exact searchLoop_inv _ _ e h ht
  | selfInsert k => exact type_inv k _ trivial h h0 h1

end Ed
end Readline
