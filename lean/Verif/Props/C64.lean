import Verif.Props.C18
import Verif.Proof.Jam
import Verif.Proof.Pending
import Verif.Spec.TakeBack
/-!
# C64: one Undo takes back one command

`C64_partial`: after a deletion, a kill, a transposition, a search, a completion or typed text one Undo restores
the line, the undo log and the pending joiner exactly; `Spec.undoCursor` says where the cursor is.  Text typed must
not begin with an attaching code point (`C64_refuted_waiting`, `C64_refuted_attach`).
`C64_paste_partial`: the same for commands that put a text at the cursor, unless something was just removed there;
then both changes are taken back together (`C64_together`, `C64_refuted_together`).
`C64_history`: browsing the history takes two Undos, of which the first leaves an empty line
(`C64_refuted_history`).
-/
namespace Readline
open Spec

namespace Ed
variable {L : Logic} {e e' : Ed} {a y x b : List Moji}

/-- The line had `y` where it now has `x`, and the undo log says so. -/
structure Edit (e e' : Ed) (a y x b : List Moji) : Prop where
  old : e.line = a ++ y ++ b
  new : e'.line = a ++ x ++ b
  log : e'.undoes = { pos := a.length, del := x.length, text := lineText y } :: e.undoes

theorem Edit.undo (h : Edit e e' a y x b) (hy : segs L.cfg (lineText y) = y) :
    (Ed.undo L e').line = e.line ∧ (Ed.undo L e').undoes = e.undoes ∧
      (Ed.undo L e').cursor = a.length + y.length := by
  have hl : (if x.length > 0 then e'.line.take ((a.length : Int)).toNat ++
      e'.line.drop ((a.length : Int).toNat + x.length) else e'.line) = a ++ b := by
    rw [h.new]
    split
    · simp
    · have : x = [] := List.eq_nil_of_length_eq_zero (by omega)
      simp [this]
  unfold Ed.undo
  rw [h.log]
  dsimp only
  rw [hl]
  by_cases ht : lineText y = []
  · have : y = [] := by rw [← hy, ht]; exact segs_nil _
    subst this
    rw [if_neg (by simp [lineText])]
    simp [h.old]
  · rw [if_pos ht]
    simp [hy, h.old]

theorem Edit.slice (h : Edit e e' a y x b) (hb : ∀ m ∈ e.line, Built L.cfg m) (ht : TailTidy L.cfg e.line) :
    segs L.cfg (lineText y) = y := by
  have := segs_slice hb ht a.length y.length
  rw [h.old] at this
  simpa using this

theorem Edit.of_eq {e1 e2 : Ed} (h : Edit e e' a y x b) (h1 : e1.line = e.line) (h2 : e1.undoes = e.undoes)
    (h3 : e2.line = e'.line) (h4 : e2.undoes = e'.undoes) : Edit e1 e2 a y x b :=
  ⟨h1.trans h.old, h3.trans h.new, by rw [h4, h2]; exact h.log⟩

theorem delete_edit (h0 : 0 ≤ e.cursor) (p n : Int) (hp : 0 ≤ p) :
    e.delete p n = e ∨ (0 < n ∧ p + n ≤ e.line.length ∧
      ∃ b, Edit e (e.delete p n) (e.line.take p.toNat) ((e.line.drop p.toNat).take n.toNat) [] b) := by
  unfold delete
  split
  · exact Or.inl rfl
  · rename_i hn
    simp only [not_or, Int.not_le, Int.not_lt, len] at hn
    refine Or.inr ⟨by omega, by omega, e.line.drop (p.toNat + n.toNat), ?_, ?_, ?_⟩
    · rw [List.append_assoc, ← List.drop_drop, List.take_append_drop, List.take_append_drop]
    · simp
    · simp; omega

theorem typeTail_edit (t : Bytes) (h0 : 0 ≤ e.cursor) (h1 : e.cursor ≤ e.line.length) :
    Edit e (typeTail L e t) (e.line.take e.cursor.toNat) [] (segs L.cfg t) (e.line.drop e.cursor.toNat) := by
  refine ⟨by simp, by simp [typeTail, insert], ?_⟩
  simp [typeTail, insert, lineText]
  omega

/-- Replacing the units from `pos` up to the cursor. -/
theorem replace_edit (t : Bytes) (pos : Nat) (h0 : (pos : Int) < e.cursor) (h1 : e.cursor ≤ e.line.length) :
    Edit e (replace L e pos t) (e.line.take pos) ((e.line.drop pos).take (e.cursor.toNat - pos))
      (segs L.cfg t) (e.line.drop e.cursor.toNat) := by
  have hd : e.delete pos (e.cursor - pos) = { e with
      line := e.line.take pos ++ e.line.drop e.cursor.toNat
      undoes := { pos := pos, del := 0
                  text := lineText ((e.line.drop pos).take (e.cursor.toNat - pos)) } :: e.undoes } := by
    unfold delete
    rw [if_neg (by simp only [len]; omega)]
    have e1 : (pos : Int).toNat + (e.cursor - pos).toNat = e.cursor.toNat := by omega
    have e2 : (e.cursor - pos).toNat = e.cursor.toNat - pos := by omega
    rw [e1, e2]
    rfl
  refine ⟨?_, ?_, ?_⟩
  · have : e.line.drop e.cursor.toNat = (e.line.drop pos).drop (e.cursor.toNat - pos) := by
      rw [List.drop_drop]; congr 1; omega
    rw [this, List.append_assoc, List.take_append_drop, List.take_append_drop]
  · unfold replace
    rw [hd]
    simp only [predict_line, insert]
    have hl : (e.line.take pos).length = pos := by simp; omega
    rw [show (pos : Int).toNat = pos from rfl, List.take_append_of_le_length (by omega),
      List.take_of_length_le (by omega), List.drop_append, List.drop_eq_nil_of_le (by omega), hl]
    simp
  · unfold replace
    rw [hd]
    simp only [predict_undoes, insert, joinUndoes]
    have hl : (e.line.take pos).length = pos := by simp; omega
    rw [hl]
    simp

/-- The commands that may leave the line alone and otherwise change it in one place. -/
def Changes (c : Cmd) (e e' : Ed) : Prop :=
  (e'.line = e.line ∧ e'.undoes = e.undoes ∧ e'.cursor = e.cursor) ∨
    ∃ a y x b, Edit e e' a y x b ∧ (a.length + y.length : Int) = undoCursor c e.cursor e.len

theorem type_plain {k : Bytes} (hj : e.cursor = 0 ∨ ¬ Joins L.cfg (decodeRune (stripAlt k)).1)
    (hp : e.pending = []) : type L e k = typeTail L e (stripAlt k) := by
  have h : ∀ z : Bool, (z = true → Joins L.cfg (decodeRune (stripAlt k)).1) →
      (z && decide (e.cursor > 0)) = false := by
    intro z hz
    rcases hj with hj | hj
    · rw [hj]; simp
    · cases z with
      | false => rfl
      | true => exact absurd (hz rfl) hj
  unfold type
  dsimp only
  rw [if_neg, if_neg, if_neg (by rw [hp]; simp)]
  · rw [h]
    · simp
    · intro hz
      simp only [Bool.or_eq_true, areVariationSelectorLike, areEmojiModifier, isVariationSelectorLike,
        isEmojiModifier, Bool.and_eq_true, decide_eq_true_eq] at hz
      unfold Joins
      rcases hz with hz | hz
      · exact Or.inr (Or.inl ⟨hz.1, hz.2.2⟩)
      · exact Or.inr (Or.inr ⟨hz.1, hz.2.2.1, hz.2.2.2⟩)
  · rw [h]
    · simp
    · intro hz
      simp only [areZeroWidthJoin, isZeroWidthJoin, Bool.and_eq_true, Bool.or_eq_true,
        decide_eq_true_eq] at hz
      exact Or.inl ⟨hz.1, hz.2.2⟩

theorem type_changes {k : Bytes} {c : Cmd} (hc : ∀ n m, undoCursor c n m = n) (h0 : 0 ≤ e.cursor)
    (h1 : e.cursor ≤ e.line.length)
    (hj : e.cursor = 0 ∨ ¬ Joins L.cfg (decodeRune (stripAlt k)).1) (hp : e.pending = []) :
    Changes c e (type L e k) ∧ (type L e k).pending = [] := by
  rw [type_plain hj hp]
  refine ⟨Or.inr ⟨_, _, _, _, typeTail_edit _ h0 h1, ?_⟩, by simpa using hp⟩
  rw [hc]
  simp
  omega

theorem popKey_next (i : List Ev) (k : Bytes) (r : List Ev) (h : popKey i = some (.key k, r)) :
    nextKey i = some k := by
  induction i generalizing r with
  | nil => simp [popKey] at h
  | cons v i ih =>
    cases v with
    | key k' => simp [popKey] at h; simp [nextKey, h.1]
    | err => simp [popKey] at h
    | resize w =>
      unfold popKey at h
      cases hp : popKey i with
      | none => rw [hp] at h; simp at h
      | some q =>
        obtain ⟨q1, q2⟩ := q
        rw [hp] at h
        simp at h
        obtain ⟨rfl, -⟩ := h
        exact ih _ hp

theorem getKey_next {k : Bytes} (h : (getKey e).1 = some k) : nextKey e.input = some k := by
  unfold getKey at h
  split at h
  · rename_i hp
    simp at h
    subst h
    exact popKey_next _ _ _ hp
  · simp at h
  · simp at h

theorem search_changes (n : Nat) (it : ISt) (e : Ed) :
    Changes .isearchBackward e (searchLoop L n it e) := by
  induction n generalizing it e with
  | zero => exact Or.inl ⟨rfl, rfl, rfl⟩
  | succ n ih =>
    unfold searchLoop
    have hf := getKey_ed_fields e
    cases hk : getKey e with
    | mk k e' =>
      rw [hk] at hf
      obtain ⟨f1, f2, f3, -⟩ := hf
      dsimp only at f1 f2 f3
      have back : ∀ {t}, Changes .isearchBackward e' t → Changes .isearchBackward e t := by
        rintro t (⟨h1, h2, h3⟩ | ⟨a, y, x, b, h, h'⟩)
        · exact Or.inl ⟨h1.trans f1, h2.trans f2, h3.trans f3⟩
        · refine Or.inr ⟨a, y, x, b, h.of_eq f1.symm f2.symm rfl rfl, ?_⟩
          rw [h']
          simp [undoCursor, len, f1]
      cases k with
      | none => exact Or.inl ⟨f1, f2, f3⟩
      | some key =>
        dsimp only
        split
        · exact back (ih _ _)
        split
        · refine back (Or.inr ⟨[], e'.line, segs L.cfg it.found, [], ⟨by simp, ?_, ?_⟩, ?_⟩)
          · unfold replace
            rw [delete_zero _ 0 _ (by simp)]
            simp [insert]
          · unfold replace
            rw [delete_zero _ 0 _ (by simp)]
            simp [insert, joinUndoes, text]
          · simp [undoCursor, len]
        split
        · exact Or.inl ⟨f1, f2, f3⟩
        split
        · exact back (ih _ _)
        split
        · exact back (ih _ _)
        split
        · exact back (ih _ _)
        · exact back (ih _ _)

theorem Changes.predict {c : Cmd} (h : Changes c e e') : Changes c e (Ed.predict L e') := by
  rcases h with ⟨h1, h2, h3⟩ | ⟨a, y, x, b, h, h'⟩
  · exact Or.inl ⟨by simpa using h1, by simpa using h2, by simpa using h3⟩
  · exact Or.inr ⟨a, y, x, b, h.of_eq rfl rfl (by simp) (by simp), h'⟩

theorem delete_changes {c : Cmd} {p n : Int} {e1 e2 : Ed} (hp : 0 ≤ p) (h1 : 0 ≤ e1.cursor)
    (hl : e1.line = e.line) (hu : e1.undoes = e.undoes) (hl' : e2.line = (e1.delete p n).line)
    (hu' : e2.undoes = (e1.delete p n).undoes)
    (hk : ¬ (0 < n ∧ p + n ≤ e.line.length) → e2.cursor = e.cursor)
    (hc : 0 < n → p + n ≤ e.line.length → p + n = undoCursor c e.cursor e.len) : Changes c e e2 := by
  rcases delete_edit (e := e1) h1 p n hp with h | ⟨i, j, b, h⟩
  · by_cases hx : 0 < n ∧ p + n ≤ e.line.length
    · exfalso
      unfold delete at h
      rw [if_neg (by simp only [len]; rw [hl]; omega)] at h
      have := congrArg (fun e : Ed => e.undoes.length) h
      simp at this
    · rw [h] at hl' hu'
      exact Or.inl ⟨hl'.trans hl, hu'.trans hu, hk hx⟩
  · rw [hl] at j
    refine Or.inr ⟨_, _, _, _, h.of_eq hl.symm hu.symm hl' hu', ?_⟩
    rw [← hc i j, hl]
    simp
    omega

theorem swap_changes (h0 : 0 ≤ e.cursor) (h1 : e.cursor ≤ e.line.length)
    (hn : ¬ (e.cursor = e.line.length ∧ 2 ≤ e.line.length)) : Changes .swapChar e (swap e) := by
  unfold swap
  split
  · rename_i hx
    simp only [len] at hx
    split
    · exact Or.inl ⟨rfl, rfl, rfl⟩
    · omega
  · rename_i hx
    simp only [len] at hx
    split
    · exact Or.inl ⟨rfl, rfl, rfl⟩
    · obtain ⟨m1, m2, hab, hsw⟩ := swapAt_eq (l := e.line) (i := (e.cursor - 1).toNat) (by omega)
      refine Or.inr ⟨e.line.take (e.cursor - 1).toNat, [m1, m2], [m2, m1],
        e.line.drop ((e.cursor - 1).toNat + 2), ⟨?_, ?_, ?_⟩, ?_⟩
      · rw [← hab, List.append_assoc, ← List.drop_drop, List.take_append_drop, List.take_append_drop]
      · exact hsw
      · rw [hab]
        simp
        omega
      · simp [undoCursor]
        omega

/-- What the editing commands do. -/
theorem call_changes {c : Cmd} (hc : oneChange c = true) (h0 : 0 ≤ e.cursor) (h1 : e.cursor ≤ e.line.length)
    (hsw : c = .swapChar → ¬ (e.cursor = e.line.length ∧ 2 ≤ e.line.length))
    (ht : ∀ k, putsText c e.input = some k →
      e.pending = [] ∧ (e.cursor = 0 ∨ ¬ Joins L.cfg (decodeRune (stripAlt k)).1)) :
    Changes c e (call L c e).1 ∧ (call L c e).1.pending = e.pending := by
  cases c with
  | backwardDeleteChar =>
    refine ⟨?_, backspace_pending⟩
    show Changes _ e (backspace L e)
    unfold backspace
    split
    · refine Changes.predict ?_
      refine delete_changes (e := e) (e1 := { e with cursor := e.cursor - 1 }) (p := e.cursor - 1) (n := 1)
        (by omega) (by dsimp only; omega) rfl rfl rfl rfl (by omega) (by intros; simp [undoCursor])
    · exact Or.inl ⟨rfl, rfl, rfl⟩
  | deleteChar =>
    refine ⟨?_, by simp [call, delete_pending]⟩
    refine Changes.predict ?_
    exact delete_changes (e := e) (e1 := e) (p := e.cursor) (n := 1) h0 h0 rfl rfl rfl rfl
      (fun _ => delete_cursor) (by intros; simp [undoCursor])
  | deleteOrAbort =>
    by_cases hl : e.len > 0
    · have hcall : call L .deleteOrAbort e = (predict L (e.delete e.cursor 1), .cont) := by simp [call, hl]
      rw [hcall]
      refine ⟨?_, by simp [delete_pending]⟩
      refine Changes.predict ?_
      exact delete_changes (e := e) (e1 := e) (p := e.cursor) (n := 1) h0 h0 rfl rfl rfl rfl
        (fun _ => delete_cursor) (by intros; simp [undoCursor])
    · have hcall : call L .deleteOrAbort e = (e, .abort) := by simp [call, hl]
      rw [hcall]
      exact ⟨Or.inl ⟨rfl, rfl, rfl⟩, rfl⟩
  | killLine =>
    refine ⟨Or.inr ⟨e.line.take e.cursor.toNat, e.line.drop e.cursor.toNat, [], [], ⟨by simp, ?_, ?_⟩, ?_⟩, rfl⟩
    · simp [call, killLine]
    · simp [call, killLine]
      omega
    · simp [undoCursor, len]
      omega
  | killWholeLine =>
    refine ⟨Or.inr ⟨[], e.line, [], [], ⟨by simp, ?_, ?_⟩, ?_⟩, rfl⟩
    · simp [call, killWhole]
    · simp [call, killWhole, text]
    · simp [undoCursor, len]
  | unixWordRubout =>
    refine ⟨?_, by simp [call, wordRubout, delete_pending]⟩
    show Changes _ e (wordRubout L e)
    unfold wordRubout
    dsimp only
    have hs : skipSpaces e.line e.cursor.toNat ≤ e.cursor.toNat := by
      unfold skipSpaces
      refine Nat.le_trans (List.dropWhile_sublist _).length_le ?_
      simp
      omega
    have hw := wordTop_bounds (L := L) e.line (skipSpaces e.line e.cursor.toNat) (by omega) (by omega)
    generalize wordTop L e.line (skipSpaces e.line e.cursor.toNat) = new at hw
    refine Changes.predict ?_
    exact delete_changes (e := e) (e1 := { e with clip := L.clipSet e.clip (lineText ((e.line.take e.cursor.toNat).drop new.toNat)) })
      (p := new) (n := e.cursor - new)
      (by omega) h0 rfl rfl rfl rfl (by intro h; dsimp only; omega) (by intros; simp [undoCursor]; omega)
  | unixLineDiscard =>
    refine ⟨?_, by simp [call, delete_pending]⟩
    refine Changes.predict ?_
    exact delete_changes (e := e) (e1 := { e with clip := L.clipSet e.clip (lineText (e.line.take e.cursor.toNat)) }) (p := 0) (n := e.cursor) (by omega) h0 rfl rfl rfl rfl
      (by intro h; dsimp only; omega) (by intros; simp [undoCursor])
  | swapChar => exact ⟨swap_changes h0 h1 (hsw rfl), by simp [call]⟩
  | isearchBackward => exact ⟨search_changes _ _ _, searchLoop_pending _ _ _⟩
  | selfInsert k =>
    obtain ⟨hp, hj⟩ := ht k rfl
    obtain ⟨i1, i2⟩ := type_changes (L := L) (e := e) (k := k) (c := .selfInsert k) (fun _ _ => rfl) h0 h1 hj hp
    exact ⟨i1, i2.trans hp.symm⟩
  | quotedInsert =>
    have hf := getKey_ed_fields e
    cases hk : getKey e with
    | mk k e' =>
      rw [hk] at hf
      obtain ⟨f1, f2, f3, -, -, -, f7, -⟩ := hf
      dsimp only at f1 f2 f3 f7
      cases k with
      | none =>
        have hcall : call L .quotedInsert e = (e', .cont) := by simp [call, hk]
        rw [hcall]
        exact ⟨Or.inl ⟨f1, f2, f3⟩, f7⟩
      | some k =>
        have hcall : call L .quotedInsert e = (type L e' k, .cont) := by simp [call, hk]
        rw [hcall]
        obtain ⟨hp, hj⟩ := ht k (getKey_next (by rw [hk]))
        obtain ⟨i1, i2⟩ := type_changes (L := L) (e := e') (k := k) (c := .quotedInsert) (fun _ _ => rfl)
          (by omega) (by rw [f1]; omega) (by rw [f3]; exact hj) (f7.trans hp)
        refine ⟨?_, i2.trans hp.symm⟩
        rcases i1 with ⟨j1, j2, j3⟩ | ⟨a, y, x, b, h, h'⟩
        · exact Or.inl ⟨j1.trans f1, j2.trans f2, j3.trans f3⟩
        · exact Or.inr ⟨a, y, x, b, h.of_eq f1.symm f2.symm rfl rfl, by rw [h', f3]; rfl⟩
  | completion P =>
    rcases complete_cases L P e with h | h | ⟨pos, t, hp, hl, h⟩
    · have hcall : call L (.completion P) e = (e, .cont) := by simp [call, h]
      rw [hcall]
      exact ⟨Or.inl ⟨rfl, rfl, rfl⟩, rfl⟩
    · have hcall : call L (.completion P) e = (predict L e, .cont) := by simp [call, h]
      rw [hcall]
      exact ⟨Or.inl ⟨by simp, by simp, by simp⟩, by simp⟩
    · have hcall : call L (.completion P) e = (replace L e pos t, .cont) := by simp [call, h]
      rw [hcall]
      refine ⟨Or.inr ⟨_, _, _, _, replace_edit t pos hp h1, ?_⟩, by simp⟩
      simp [undoCursor]
      omega
  | _ => simp [oneChange] at hc

/-! ## Putting a text at the cursor -/

/-- What `joinUndoes` makes of an insertion. -/
theorem joinUndoes_insert (p : Int) (n : Nat) (us : List Undo) :
    (joinUndoes ({ pos := p, del := n, text := [] } :: us) = { pos := p, del := n, text := [] } :: us ∧
      ∀ u rest, us = u :: rest → u.pos = p → u.del ≠ 0) ∨
    ∃ u rest, us = u :: rest ∧ u.pos = p ∧ (u.del = 0 ∨ n = 0) ∧
      joinUndoes ({ pos := p, del := n, text := [] } :: us) =
        { pos := p, del := u.del + n, text := u.text } :: rest := by
  cases us with
  | nil => exact Or.inl ⟨rfl, fun _ _ h => (nomatch h)⟩
  | cons u rest =>
    rw [joinUndoes]
    split
    · rename_i hp
      refine Or.inl ⟨rfl, ?_⟩
      intro u' r' h1 h2
      simp at h1
      exact absurd (h1.1 ▸ h2) hp
    · rename_i hp
      rw [if_neg (by simp)]
      split
      · rename_i hd
        refine Or.inl ⟨rfl, ?_⟩
        intro u' r' h1 h2
        simp at h1
        exact h1.1 ▸ hd.1
      · rename_i hd
        refine Or.inr ⟨u, rest, rfl, Decidable.not_not.mp hp, by dsimp only at hd; omega, ?_⟩
        have h1 : (if u.text = [] then [] else u.text) = u.text := by split <;> simp_all
        have h2 : (if u.del = 0 then n else u.del) = u.del + n := by dsimp only at hd; split <;> omega
        rw [h1, h2, Decidable.not_not.mp hp]

/-- A text put at the cursor is an edit of its own, or it is undone together with what is undone
at the same place. -/
theorem paste_changes (t : Bytes) (h0 : 0 ≤ e.cursor) (h1 : e.cursor ≤ e.line.length) :
    (Edit e (replace L e e.cursor t) (e.line.take e.cursor.toNat) [] (segs L.cfg t)
        (e.line.drop e.cursor.toNat) ∧ ∀ u rest, e.undoes = u :: rest → u.pos = e.cursor → u.del ≠ 0) ∨
    ∃ u rest, e.undoes = u :: rest ∧ u.pos = e.cursor ∧ (u.del = 0 ∨ segs L.cfg t = []) ∧
      (replace L e e.cursor t).line =
        e.line.take e.cursor.toNat ++ segs L.cfg t ++ e.line.drop e.cursor.toNat ∧
      (replace L e e.cursor t).undoes =
        { pos := e.cursor, del := u.del + (segs L.cfg t).length, text := u.text } :: rest := by
  have hl : (replace L e e.cursor t).line =
      e.line.take e.cursor.toNat ++ segs L.cfg t ++ e.line.drop e.cursor.toNat := by
    unfold replace
    rw [delete_zero e e.cursor _ (by omega)]
    simp [insert]
  have hu : (replace L e e.cursor t).undoes =
      joinUndoes ({ pos := e.cursor, del := (segs L.cfg t).length, text := [] } :: e.undoes) := by
    unfold replace
    rw [delete_zero e e.cursor _ (by omega)]
    simp [insert]
  rcases joinUndoes_insert e.cursor (segs L.cfg t).length e.undoes with ⟨h, h'⟩ | ⟨u, rest, h2, h3, h4, h5⟩
  · refine Or.inl ⟨⟨by simp, hl, ?_⟩, h'⟩
    rw [hu, h]
    simp [lineText]
    omega
  · refine Or.inr ⟨u, rest, h2, h3, ?_, hl, hu.trans h5⟩
    rcases h4 with h4 | h4
    · exact Or.inl h4
    · exact Or.inr (List.eq_nil_of_length_eq_zero h4)

/-- Undoing both together is undoing the first. -/
theorem undo_both {u : Undo} {rest : List Undo} {x : List Moji} (hu : e.undoes = u :: rest)
    (hp : u.pos = a.length) (hx : u.del = 0 ∨ x = []) (hl : e.line = a ++ b) (hl' : e'.line = a ++ x ++ b)
    (hu' : e'.undoes = { pos := u.pos, del := u.del + x.length, text := u.text } :: rest) :
    (undo L e').line = (undo L e).line ∧ (undo L e').undoes = (undo L e).undoes ∧
      (undo L e').cursor = (undo L e).cursor := by
  have hsame : (if u.del + x.length > 0 then e'.line.take u.pos.toNat ++
        e'.line.drop (u.pos.toNat + (u.del + x.length)) else e'.line) =
      (if u.del > 0 then e.line.take u.pos.toNat ++ e.line.drop (u.pos.toNat + u.del) else e.line) := by
    rw [hp]
    rcases hx with hx | rfl
    · rw [hx, hl, hl']
      simp only [Nat.zero_add, List.append_assoc]
      split
      · simp
      · have : x = [] := List.eq_nil_of_length_eq_zero (by omega)
        simp [this]
    · rw [hl, hl']
      simp
  unfold undo
  rw [hu, hu']
  dsimp only
  rw [hsame]
  split <;> simp

/-- `n` Undos. -/
def undoN (L : Logic) : Nat → Ed → Ed
  | 0, e => e
  | n + 1, e => undo L (undoN L n e)

theorem undo_congr (h1 : e.line = e'.line) (h2 : e.undoes = e'.undoes) :
    (undo L e).line = (undo L e').line ∧ (undo L e).undoes = (undo L e').undoes ∧
      ((undo L e).cursor = (undo L e').cursor ∨ e.undoes = []) := by
  unfold undo
  rw [← h2, ← h1]
  cases hu : e.undoes with
  | nil => exact ⟨h1, by rw [← h2, hu], Or.inr rfl⟩
  | cons u us =>
    dsimp only
    split <;> simp

end Ed

theorem undos_n {E : Env} {s t : St} {n : Nat} (hb : BuiltinKeys E) (h : Undos E s n t) :
    t.line = (Ed.undoN E.logic n s.ed).line ∧ t.undoes = (Ed.undoN E.logic n s.ed).undoes ∧
      t.pending = s.pending ∧ t.cursor = (Ed.undoN E.logic n s.ed).cursor := by
  induction h with
  | none => exact ⟨rfl, rfl, rfl, rfl⟩
  | resize _ hi hst ih =>
    have ho := resize_obs hi hst
    obtain ⟨i1, i2, i3, i4⟩ := ih
    exact ⟨ho.line.trans i1, ho.undoes.trans i2, ho.pending.trans i3, ho.cursor.trans i4⟩
  | @undo n t t' k rest _ hi hk hst ih =>
    obtain ⟨i1, i2, i3, i4⟩ := ih
    have ho := (step_obs hb hi hst).1
    rw [hk] at ho
    have hc := Ed.undo_congr (L := E.logic) (e := { t.ed with input := rest }) (e' := Ed.undoN E.logic n s.ed) i1 i2
    refine ⟨ho.line.trans hc.1, ho.undoes.trans hc.2.1, ho.pending.trans ?_, ?_⟩
    · exact (Ed.undo_pending (L := E.logic) (e := { t.ed with input := rest })).trans i3
    · rw [ho.cursor]
      rcases hc.2.2 with h | h
      · exact h
      · have h' : (Ed.undoN E.logic n s.ed).undoes = [] := i2.symm.trans h
        show (Ed.undo E.logic { t.ed with input := rest }).cursor = (Ed.undo E.logic (Ed.undoN E.logic n s.ed)).cursor
        unfold Ed.undo
        rw [h, h']
        exact i4

theorem units_of_line {s t : St} (h : t.line = s.line) : t.units = s.units := by
  rw [St.units_eq, St.units_eq, h]

/-- The cursor is inside the line. -/
theorem cursor_inside {E : Env} {w : World} {s : St} (hb : BuiltinKeys E) (hw : 0 ≤ w.cursor)
    (hr : Reachable E w s) : 0 ≤ s.cursor ∧ s.cursor ≤ s.line.length ∧ (s.line.length : Int) = s.len ∧
      ∀ m ∈ s.line, Built E.cfg m := by
  obtain ⟨h1, h2, h3⟩ := (reachable_inside hb hw hr).1
  have hlen : (s.line.length : Int) = s.len := by simp [St.line, St.len]
  exact ⟨by omega, by omega, hlen, reachable_built hb hr⟩

/-- An editing command changes nothing, or one Undo takes it back. -/
theorem C64_partial {E : Env} {w : World} {s s' : St} {k : Bytes} {rest : List Ev} (hb : BuiltinKeys E)
    (hw : 0 ≤ w.cursor) (hr : Reachable E w s) (hcalm : Calm E s) (hi : s.input = .key k :: rest)
    (hc : oneChange (lookupCommand E k) = true)
    (ht : ∀ x, putsText (lookupCommand E k) rest = some x →
      s.pending = [] ∧ (s.cursor = 0 ∨ ¬ Joins E.cfg (decodeRune (stripAlt x)).1))
    (hst : step E s = .ok (s', none)) :
    Untouched s s' ∨ (s'.undoes.length = s.undoes.length + 1 ∧
      ∀ t, Undos E s' 1 t → Restored (lookupCommand E k) s t) := by
  obtain ⟨i1, i2, hlen, hbuilt⟩ := cursor_inside hb hw hr
  have ho := (step_obs hb hi hst).1
  obtain ⟨hch, hp⟩ := Ed.call_changes (L := E.logic) (e := { s.ed with input := rest }) hc i1 i2
    (by
      intro hx ⟨h1, h2⟩
      exact hcalm.2 k rest hi hx ⟨by rw [← hlen]; exact h1, by rw [← hlen]; exact_mod_cast h2⟩)
    ht
  rcases hch with ⟨h1, h2, h3⟩ | ⟨a, y, x, b, h, h'⟩
  · exact Or.inl ⟨units_of_line (ho.line.trans h1), ho.cursor.trans h3, ho.undoes.trans h2⟩
  · right
    have h : Ed.Edit s.ed s'.ed a y x b := h.of_eq rfl rfl ho.line ho.undoes
    refine ⟨?_, ?_⟩
    · have := congrArg List.length h.log
      exact this
    · intro t hu
      obtain ⟨j1, j2, j3, j4⟩ := undos_n hb hu
      obtain ⟨l1, l2, l3⟩ := h.undo (L := E.logic) (h.slice hbuilt (tailTidy_of hbuilt hcalm.1))
      refine ⟨units_of_line (j1.trans l1), j2.trans l2, j3.trans (ho.pending.trans hp), ?_⟩
      rw [j4]
      show (Ed.undo E.logic s'.ed).cursor = _
      rw [l3, h', ← hlen]
      rfl

/-- The commands that put a text at the cursor. -/
theorem pastes_replace {L : Logic} {c : Cmd} {e : Ed} (hc : pastes c = true) :
    ((Ed.call L c e).1.line = e.line ∧ (Ed.call L c e).1.undoes = e.undoes ∧
      (Ed.call L c e).1.pending = e.pending) ∨
    ∃ t, (Ed.call L c e).1 = Ed.replace L e e.cursor t := by
  cases c with
  | yank =>
    cases h : e.clip with
    | none => left; simp [Ed.call, h]
    | some t => right; exact ⟨trimRightCRLFNUL t, by simp [Ed.call, h]⟩
  | yankWithQuote =>
    cases h : e.clip with
    | none => left; simp [Ed.call, h]
    | some t => right; exact ⟨quoteText t, by simp [Ed.call, h]⟩
  | forwardChar =>
    by_cases h1 : e.cursor ≥ e.len
    · by_cases h2 : e.suffixList.length > 0
      · right
        refine ⟨lineText e.suffixList, ?_⟩
        simp only [Ed.call]
        rw [if_pos h1, if_pos h2]
      · left
        simp only [Ed.call]
        rw [if_pos h1, if_neg h2]
        exact ⟨rfl, rfl, rfl⟩
    · left
      simp only [Ed.call]
      rw [if_neg h1]
      exact ⟨rfl, rfl, rfl⟩
  | _ => simp [pastes] at hc

/-- A text put where nothing was just removed is taken back by one Undo. -/
theorem C64_paste_partial {E : Env} {w : World} {s s' : St} {k : Bytes} {rest : List Ev} (hb : BuiltinKeys E)
    (hw : 0 ≤ w.cursor) (hr : Reachable E w s) (hi : s.input = .key k :: rest)
    (hc : pastes (lookupCommand E k) = true) (hj : ¬ JustRemoved s)
    (hst : step E s = .ok (s', none)) :
    (s'.units = s.units ∧ s'.undoes = s.undoes) ∨ (s'.undoes.length = s.undoes.length + 1 ∧
      ∀ t, Undos E s' 1 t → Restored (lookupCommand E k) s t) := by
  obtain ⟨i1, i2, hlen, hbuilt⟩ := cursor_inside hb hw hr
  have ho := (step_obs hb hi hst).1
  have f : ∃ e : Ed, e = { s.ed with input := rest } ∧ e.line = s.line ∧ e.undoes = s.undoes ∧
      e.cursor = s.cursor ∧ e.pending = s.pending := ⟨_, rfl, rfl, rfl, rfl, rfl⟩
  obtain ⟨e, he, f1, f2, f3, f4⟩ := f
  rw [← he] at ho
  rcases pastes_replace (L := E.logic) (e := e) hc with ⟨h1, h2, h3⟩ | ⟨x, h1⟩
  · exact Or.inl ⟨units_of_line (ho.line.trans (h1.trans f1)), ho.undoes.trans (h2.trans f2)⟩
  · rw [h1] at ho
    rcases Ed.paste_changes (L := E.logic) (e := e) x (by omega) (by rw [f1]; omega) with
      ⟨h, -⟩ | ⟨u, us, h2, h3, h4, h5, h6⟩
    · right
      have h : Ed.Edit s.ed s'.ed _ _ _ _ := h.of_eq f1.symm f2.symm ho.line ho.undoes
      refine ⟨?_, ?_⟩
      · have := congrArg List.length h.log
        exact this
      · intro t hu
        obtain ⟨j1, j2, j3, j4⟩ := undos_n hb hu
        obtain ⟨l1, l2, l3⟩ := h.undo (L := E.logic) (by simp [lineText, segs_nil])
        refine ⟨units_of_line (j1.trans l1), j2.trans l2, ?_, ?_⟩
        · rw [j3, ho.pending, ← f4]
          simp
        · rw [j4]
          show (Ed.undo E.logic s'.ed).cursor = _
          rw [l3]
          have : undoCursor (lookupCommand E k) s.cursor s.len = s.cursor := by
            cases hk : lookupCommand E k with
            | yank | yankWithQuote | forwardChar => rfl
            | _ => rw [hk] at hc; simp [pastes] at hc
          rw [this, f1, f3, List.length_take]
          simp
          omega
    · left
      rcases h4 with h4 | h4
      · exact absurd ⟨u, us, f2 ▸ h2, f3 ▸ h3, h4⟩ hj
      · rw [h4] at h5 h6
        refine ⟨units_of_line (ho.line.trans (h5.trans (by simp [f1]))), ?_⟩
        rw [ho.undoes, h6, ← f2, h2]
        obtain ⟨up, ud, ut⟩ := u
        have : up = e.cursor := h3
        subst this
        simp

/-- A text put where something was just removed is undone together with the removal: Undo gives what it
would have given without the text. -/
theorem C64_together {E : Env} {w : World} {s s' t t' : St} {k : Bytes} {rest : List Ev} {r : Result}
    (hb : BuiltinKeys E) (hw : 0 ≤ w.cursor) (hr : Reachable E w s) (hi : s.input = .key k :: rest)
    (hc : pastes (lookupCommand E k) = true) (hj : JustRemoved s)
    (hst : step E s = .ok (s', none)) (hu : Undos E s' 1 t) (hd : Cmd.call E .undo s = .ok (t', r)) :
    t.units = t'.units ∧ t.undoes = t'.undoes ∧ t.cursor = t'.cursor := by
  obtain ⟨i1, i2, hlen, hbuilt⟩ := cursor_inside hb hw hr
  have ho := (step_obs hb hi hst).1
  have ho' := (call_obs rfl hd).1
  obtain ⟨j1, j2, j3, j4⟩ := undos_n hb hu
  obtain ⟨u, us, hu1, hu2, hu3⟩ := hj
  suffices h : (Ed.undo E.logic s'.ed).line = (Ed.undo E.logic s.ed).line ∧
      (Ed.undo E.logic s'.ed).undoes = (Ed.undo E.logic s.ed).undoes ∧
      (Ed.undo E.logic s'.ed).cursor = (Ed.undo E.logic s.ed).cursor from
    ⟨units_of_line (j1.trans (h.1.trans ho'.line.symm)), j2.trans (h.2.1.trans ho'.undoes.symm),
      j4.trans (h.2.2.trans ho'.cursor.symm)⟩
  have f : ∃ e : Ed, e = { s.ed with input := rest } ∧ e.line = s.line ∧ e.undoes = s.undoes ∧
      e.cursor = s.cursor ∧ e.pending = s.pending := ⟨_, rfl, rfl, rfl, rfl, rfl⟩
  obtain ⟨e, he, f1, f2, f3, f4⟩ := f
  rw [← he] at ho
  rcases pastes_replace (L := E.logic) (e := e) hc with ⟨h1, h2, h3⟩ | ⟨x, h1⟩
  · obtain ⟨g1, g2, g3⟩ := Ed.undo_congr (L := E.logic) (e := s'.ed) (e' := s.ed)
      (ho.line.trans (h1.trans f1)) (ho.undoes.trans (h2.trans f2))
    refine ⟨g1, g2, ?_⟩
    rcases g3 with g3 | g3
    · exact g3
    · have : s.undoes = [] := (ho.undoes.trans (h2.trans f2)).symm.trans g3
      rw [this] at hu1
      cases hu1
  · rw [h1] at ho
    rcases Ed.paste_changes (L := E.logic) (e := e) x (by omega) (by rw [f1]; omega) with
      ⟨-, h⟩ | ⟨u', us', h2, h3, h4, h5, h6⟩
    · exact absurd hu3 (h u us (f2.trans hu1) (hu2.trans f3.symm))
    · have : u' :: us' = u :: us := h2.symm.trans (f2.trans hu1)
      simp at this
      obtain ⟨rfl, rfl⟩ := this
      have hl : ((s.line.take s.cursor.toNat).length : Int) = s.cursor := by simp; omega
      rw [f1] at h5
      rw [f3] at ho h5 h6
      exact Ed.undo_both (a := s.line.take s.cursor.toNat) (b := s.line.drop s.cursor.toNat) hu1
        (by rw [hl]; exact hu2) h4 (List.take_append_drop _ _).symm (ho.line.trans h5)
        (by rw [hu2]; exact ho.undoes.trans h6)

/-! ## Commands that are two changes -/

namespace Ed
variable {L : Logic} {e : Ed}

theorem hist_cases {c : Cmd} (hc : c = .previousHistory ∨ c = .nextHistory) :
    (call L c e).1 = e ∨ ∃ e1, e1.line = e.line ∧ e1.undoes = e.undoes ∧ e1.pending = e.pending ∧
      (call L c e).1 = showHist L e1 := by
  rcases hc with rfl | rfl
  · show prevHist L e = e ∨ ∃ e1, _ ∧ _ ∧ _ ∧ prevHist L e = showHist L e1
    unfold prevHist
    split
    · exact Or.inl rfl
    split
    · exact Or.inl rfl
    · right
      dsimp only
      refine ⟨_, ?_, ?_, ?_, rfl⟩ <;> dsimp only
      · rw [(saveHist_fields _ _).1]; split <;> rfl
      · rw [(saveHist_fields _ _).2.1]; split <;> rfl
      · rw [saveHist_pending]; split <;> rfl
  · show nextHist L e = e ∨ ∃ e1, _ ∧ _ ∧ _ ∧ nextHist L e = showHist L e1
    unfold nextHist
    split
    · exact Or.inl rfl
    split
    · exact Or.inl rfl
    · right
      dsimp only
      exact ⟨{ saveHist L e with histPtr := (saveHist L e).histPtr + 1 }, (saveHist_fields _ _).1,
        (saveHist_fields _ _).2.1, saveHist_pending, rfl⟩

/-- Two changes one after the other. -/
theorem undo_two {e1 e2 : Ed} {a y x b a' y' x' b' : List Moji} (h1 : Edit e e1 a y x b)
    (h2 : Edit e1 e2 a' y' x' b') (hy : segs L.cfg (lineText y) = y)
    (hy' : segs L.cfg (lineText y') = y') :
    (undoN L 2 e2).line = e.line ∧ (undoN L 2 e2).undoes = e.undoes ∧
      (undoN L 2 e2).cursor = a.length + y.length ∧ (undoN L 1 e2).line = e1.line := by
  obtain ⟨i1, i2, i3⟩ := h2.undo (L := L) hy'
  obtain ⟨j1, j2, j3⟩ := Edit.undo (L := L) (h1.of_eq rfl rfl i1 i2) hy
  exact ⟨j1, j2, j3, i1⟩

end Ed

theorem segN_ne_nil (C : Cfg) (rs : List Rune) (j : Bool) (acc : List Moji) (h : acc ≠ []) :
    segN C rs j acc ≠ [] := by
  have hm : ∀ (f : Moji → Moji) (l : List Moji), l ≠ [] → mapHead f l ≠ [] := by
    intro f l hl
    cases l with
    | nil => exact absurd rfl hl
    | cons a l => simp [mapHead]
  induction rs generalizing j acc with
  | nil =>
    unfold segN
    split
    · simpa using hm _ _ h
    · simpa using h
  | cons r rs ih =>
    unfold segN
    repeat' split
    · exact ih _ _ (hm _ _ h)
    · exact ih _ _ (by simp)
    · exact ih _ _ h
    · exact ih _ _ (hm _ _ h)
    · exact ih _ _ (hm _ _ h)

/-- A text that is not empty has a unit. -/
theorem segs_ne_nil (C : Cfg) {t : Bytes} (h : t ≠ []) : segs C t ≠ [] := by
  obtain ⟨x, u, rfl⟩ := List.exists_cons_of_ne_nil h
  rw [segs_eq, runesOf_cons]
  unfold segN
  rw [if_neg (by simp), if_pos (Or.inl rfl)]
  exact segN_ne_nil _ _ _ _ (by simp)

/-- What two Undos have to take back. -/
def Spec.RestoredTwice (s t : St) : Prop := t.units = s.units ∧ t.undoes = s.undoes ∧ t.pending = s.pending

/-- Browsing the history is taken back by one Undo if it showed an empty line and by two
otherwise, the first of which leaves an empty line. -/
theorem C64_history {E : Env} {w : World} {s s' : St} {k : Bytes} {rest : List Ev} (hb : BuiltinKeys E)
    (hw : 0 ≤ w.cursor) (hr : Reachable E w s) (htd : Tidy E.cfg s) (hi : s.input = .key k :: rest)
    (hc : lookupCommand E k = .previousHistory ∨ lookupCommand E k = .nextHistory)
    (hst : step E s = .ok (s', none)) :
    Untouched s s' ∨
    (s'.units = [] ∧ ∀ t, Undos E s' 1 t → RestoredTwice s t ∧ t.cursor = s.len) ∨
    (s'.units ≠ [] ∧ (∀ t, Undos E s' 1 t → t.units = []) ∧
      ∀ t, Undos E s' 2 t → RestoredTwice s t ∧ t.cursor = s.len) := by
  obtain ⟨i1, i2, hlen, hbuilt⟩ := cursor_inside hb hw hr
  have htidy := tailTidy_of hbuilt htd
  have ho := (step_obs hb hi hst).1
  have f : ∃ e : Ed, e = { s.ed with input := rest } ∧ e.line = s.line ∧ e.undoes = s.undoes ∧
      e.cursor = s.cursor ∧ e.pending = s.pending := ⟨_, rfl, rfl, rfl, rfl, rfl⟩
  obtain ⟨e, he, f1, f2, f3, f4⟩ := f
  rw [← he] at ho
  rcases Ed.hist_cases (L := E.logic) (e := e) hc with h | ⟨e1, g1, g2, g3, h⟩
  · rw [h] at ho
    exact Or.inl ⟨units_of_line (ho.line.trans f1), ho.cursor.trans f3, ho.undoes.trans f2⟩
  · right
    rw [h] at ho
    have hp : s'.pending = s.pending := by
      rw [ho.pending, Ed.showHist_pending, g3, f4]
    have hk : Ed.Edit s.ed (Ed.killWhole e1) [] s.line [] [] := by
      refine ⟨by simp; rfl, rfl, ?_⟩
      show { pos := 0, del := 0, text := e1.text } :: e1.undoes = _
      rw [g2, f2, Ed.text, g1, f1]
      rfl
    have hseg : segs E.logic.cfg (lineText s.line) = s.line := segs_line hbuilt htidy
    by_cases ht : Ed.getHist E.logic (Ed.killWhole e1) = []
    · left
      have hsh : Ed.showHist E.logic e1 = Ed.killWhole e1 := by
        unfold Ed.showHist
        dsimp only
        rw [if_neg (by simpa using ht)]
      rw [hsh] at ho
      refine ⟨by rw [ho.units]; rfl, ?_⟩
      intro t hu
      obtain ⟨j1, j2, j3, j4⟩ := undos_n hb hu
      obtain ⟨l1, l2, l3⟩ := Ed.Edit.undo (L := E.logic) (hk.of_eq (e2 := s'.ed) rfl rfl ho.line ho.undoes) hseg
      refine ⟨⟨units_of_line (j1.trans l1), j2.trans l2, j3.trans hp⟩, ?_⟩
      rw [j4, ← hlen]
      have l3' : (Ed.undoN E.logic 1 s'.ed).cursor = _ := l3
      rw [l3']
      simp
    · right
      generalize hx : Ed.getHist E.logic (Ed.killWhole e1) = x at ht
      have hsh : Ed.Edit (Ed.killWhole e1) (Ed.showHist E.logic e1) [] [] (segs E.cfg x) [] := by
        unfold Ed.showHist
        dsimp only
        rw [if_pos (by rw [hx]; exact ht), hx]
        exact ⟨rfl, by simp [Ed.insert, Ed.killWhole]; rfl, rfl⟩
      have hsh' : Ed.Edit (Ed.killWhole e1) s'.ed [] [] (segs E.cfg x) [] := hsh.of_eq rfl rfl ho.line ho.undoes
      refine ⟨?_, ?_, ?_⟩
      · rw [St.units_eq]
        intro hnil
        have : segs E.cfg x = [] := by
          have := hsh'.new
          rw [show s'.ed.line = s'.line from rfl, List.map_eq_nil_iff.mp hnil] at this
          simpa using this.symm
        exact segs_ne_nil E.cfg ht this
      · intro t hu
        obtain ⟨j1, -⟩ := undos_n hb hu
        have := (hsh'.undo (L := E.logic) (by simp [lineText, segs_nil])).1
        rw [St.units_eq, j1]
        show List.map Moji.write (Ed.undo E.logic s'.ed).line = []
        rw [this]
        rfl
      · intro t hu
        obtain ⟨j1, j2, j3, j4⟩ := undos_n hb hu
        obtain ⟨l1, l2, l3, -⟩ := Ed.undo_two (L := E.logic) hk hsh' hseg (by simp [lineText, segs_nil])
        refine ⟨⟨units_of_line (j1.trans l1), j2.trans l2, j3.trans hp⟩, ?_⟩
        rw [j4, ← hlen]
        simpa using l3

section
open Example

/-- **Refuted** for text typed while a joiner waits: `a`, U+200D and Undo give `a`, but the joiner still waits
with a copy of `a`, and typing `b` doubles it. -/
theorem C64_refuted_waiting :
    let w : World := { input := keys ["a", "\u200d", "\x1f", "b"] }
    [look (after (env full) w 1), look (after (env full) w 2), look (after (env full) w 3),
     look (after (env full) w 4)] =
    [.inr ([b "a"], 1, 0), .inr ([], 0, 0), .inr ([b "a"], 1, 0), .inr ([b "a", b "a\u200db"], 2, 0)] := by
  decide +kernel

/-- **Refuted** for a typed variation selector: it is one key and takes two Undos; after the first the character
it was attached to is gone as well. -/
theorem C64_refuted_attach :
    let w : World := { input := keys ["a", "\ufe0f", "\x1f", "\x1f"] }
    [look (after (env full) w 1), look (after (env full) w 2), look (after (env full) w 3),
     look (after (env full) w 4)] =
    [.inr ([b "a"], 1, 0), .inr ([b "a\ufe0f"], 1, 0), .inr ([], 0, 0), .inr ([b "a"], 1, 0)] := by
  decide +kernel

/-- **Refuted** for a paste right after a kill: Undo takes back both, so nothing seems to happen. -/
theorem C64_refuted_together :
    let w : World := { input := keys ["a", "b", "\x15", "\x19", "\x1f", "\x1f"] }
    [look (after (env plain) w 2), look (after (env plain) w 3), look (after (env plain) w 4),
     look (after (env plain) w 5), look (after (env plain) w 6)] =
    [.inr ([b "a", b "b"], 2, 0), .inr ([], 0, 0), .inr ([b "a", b "b"], 2, 0),
     .inr ([b "a", b "b"], 2, 0), .inr ([b "a"], 1, 0)] := by
  decide +kernel

/-- **Refuted** for the history: the first Undo leaves an empty line. -/
theorem C64_refuted_history :
    let w : World := { input := keys ["a", "b", "\x10", "\x1f", "\x1f"] }
    let E : Env := { env plain with history := [b "old"] }
    [look (after E w 2), look (after E w 3), look (after E w 4), look (after E w 5)] =
    [.inr ([b "a", b "b"], 2, 0), .inr ([b "o", b "l", b "d"], 3, 0), .inr ([], 0, 0),
     .inr ([b "a", b "b"], 2, 0)] := by
  decide +kernel

/-- A deletion in the middle is taken back; the cursor is one place further right. -/
example :
    let w : World := { input := keys ["a", "b", "c", "\x02", "\x02", "\x04", "\x1f"] }
    [look (after (env plain) w 5), look (after (env plain) w 6), look (after (env plain) w 7)] =
    [.inr ([b "a", b "b", b "c"], 1, 0), .inr ([b "a", b "c"], 1, 0),
     .inr ([b "a", b "b", b "c"], 2, 0)] := by decide +kernel

/-- Yank in the middle (after moving, so that nothing was just removed there), a killed tail and
a transposition are each taken back by one Undo. -/
example :
    let w : World := { input := keys ["a", "b", "c", "\x02", "\x0b", "\x02", "\x19", "\x1f", "\x14", "\x1f", "\x1f"] }
    [look (after (env plain) w 6), look (after (env plain) w 7), look (after (env plain) w 8),
     look (after (env plain) w 9), look (after (env plain) w 10), look (after (env plain) w 11)] =
    [.inr ([b "a", b "b"], 1, 0), .inr ([b "a", b "c", b "b"], 2, 0), .inr ([b "a", b "b"], 1, 0),
     .inr ([b "b", b "a"], 2, 0), .inr ([b "a", b "b"], 2, 0), .inr ([b "a", b "b", b "c"], 3, 0)] := by
  decide +kernel

end

end Readline
