import Verif.Proof.Invariant
/-!
# What a command does to the units, the cursor and the clipboard
-/
namespace Readline
open Spec

/-- The parts of the state a command changes that do not depend on the screen. -/
structure Obs (s' : St) (e : Ed) : Prop where
  line : s'.line = e.line
  cursor : s'.cursor = e.cursor
  undoes : s'.undoes = e.undoes
  clip : s'.clip = e.clip
  pending : s'.pending = e.pending
  histPtr : s'.histPtr = e.histPtr
  modHist : s'.modHist = e.modHist
  input : s'.input = e.input

theorem Obs.of_ed {s' : St} {e : Ed} (h : s'.ed = e) : Obs s' e := by
  subst h
  exact ⟨rfl, rfl, rfl, rfl, rfl, rfl, rfl, rfl⟩

theorem Obs.of_predict {s' : St} {L : Logic} {e : Ed} (h : s'.ed = Ed.predict L e) : Obs s' e := by
  have := Obs.of_ed h
  exact ⟨by simpa using this.line, by simpa using this.cursor, by simpa using this.undoes,
    by simpa using this.clip, by simpa using this.pending, by simpa using this.histPtr,
    by simpa using this.modHist, by simpa using this.input⟩

theorem call_obs {E : Env} {c : Cmd} {s s' : St} {rc : Result} (hb : c.builtin = true)
    (h : Cmd.call E c s = .ok (s', rc)) :
    Obs s' (Ed.call E.logic c s.ed).1 ∧ rc = (Ed.call E.logic c s.ed).2 := by
  obtain ⟨h1, h2⟩ := call_ed hb h
  refine ⟨?_, h2⟩
  rcases h1 with h1 | ⟨-, h1⟩
  · exact .of_ed h1
  · exact .of_predict h1

theorem Obs.units {s' : St} {e : Ed} (h : Obs s' e) : s'.units = e.line.map Moji.write := by
  rw [St.units_eq, h.line]

theorem ed_units (s : St) : s.ed.line.map Moji.write = s.units := (St.units_eq s).symm

theorem units_length (s : St) : s.units.length = s.ed.line.length := by
  rw [← ed_units, List.length_map]

theorem lineText_units (l : List Moji) : lineText l = (l.map Moji.write).flatten := by
  simp [lineText, List.flatMap]


/-! ## The line consists of whole units -/

namespace Ed

/-- Every unit of the line is one that cutting a text into units can give. -/
def AllBuilt (C : Cfg) (l : List Moji) : Prop := ∀ m ∈ l, Built C m

variable {L : Logic} {e : Ed}

theorem AllBuilt.take {C : Cfg} {l : List Moji} (h : AllBuilt C l) (n : Nat) : AllBuilt C (l.take n) :=
  fun m hm => h m (List.mem_of_mem_take hm)
theorem AllBuilt.drop {C : Cfg} {l : List Moji} (h : AllBuilt C l) (n : Nat) : AllBuilt C (l.drop n) :=
  fun m hm => h m (List.mem_of_mem_drop hm)
theorem AllBuilt.append {C : Cfg} {l r : List Moji} (h : AllBuilt C l) (h' : AllBuilt C r) :
    AllBuilt C (l ++ r) := by
  intro m hm
  rcases List.mem_append.mp hm with hm | hm
  · exact h m hm
  · exact h' m hm
theorem allBuilt_segs (C : Cfg) (t : Bytes) : AllBuilt C (segs C t) := segs_built C t
theorem AllBuilt.insert (h : AllBuilt L.cfg e.line) (p : Int) (t : Bytes) :
    AllBuilt L.cfg (e.insert L p t).line := ((h.take _).append (allBuilt_segs _ _)).append (h.drop _)
theorem AllBuilt.delete (h : AllBuilt L.cfg e.line) (p n : Int) : AllBuilt L.cfg (e.delete p n).line := by
  unfold Ed.delete
  split
  · exact h
  · exact (h.take _).append (h.drop _)
theorem AllBuilt.replace (h : AllBuilt L.cfg e.line) (p : Int) (t : Bytes) :
    AllBuilt L.cfg (e.replace L p t).line := by
  unfold Ed.replace
  rw [predict_line]
  exact (h.delete (L := L) p _).insert p t
theorem AllBuilt.backspace (h : AllBuilt L.cfg e.line) : AllBuilt L.cfg (e.backspace L).line := by
  unfold Ed.backspace
  split
  · rw [predict_line]
    exact AllBuilt.delete (L := L) (e := { e with cursor := e.cursor - 1 }) h _ _
  · exact h
theorem AllBuilt.typeTail (h : AllBuilt L.cfg e.line) (t : Bytes) : AllBuilt L.cfg (e.typeTail L t).line := by
  unfold Ed.typeTail
  rw [predict_line]
  exact h.insert _ t
theorem AllBuilt.type (h : AllBuilt L.cfg e.line) (t : Bytes) : AllBuilt L.cfg (e.type L t).line := by
  unfold Ed.type
  dsimp only
  split
  · exact AllBuilt.backspace (L := L) (e := { e with pending := _ }) h
  · split
    · exact h.backspace.typeTail _
    · split
      · apply AllBuilt.typeTail; exact h
      · exact h.typeTail _
theorem AllBuilt.showHist : AllBuilt L.cfg (e.showHist L).line := by
  have h : AllBuilt L.cfg (Ed.killWhole e).line := by intro m hm; cases hm
  unfold Ed.showHist
  dsimp only
  split
  · exact h.insert 0 _
  · exact h
theorem AllBuilt.undo (h : AllBuilt L.cfg e.line) : AllBuilt L.cfg (e.undo L).line := by
  unfold Ed.undo
  split
  · exact h
  · rename_i u rest _
    dsimp only
    rw [predict_line]
    have hl : AllBuilt L.cfg (if u.del > 0 then e.line.take u.pos.toNat ++ e.line.drop (u.pos.toNat + u.del)
        else e.line) := by
      split
      · exact (h.take _).append (h.drop _)
      · exact h
    split
    · exact ((hl.take _).append (allBuilt_segs _ _)).append (hl.drop _)
    · exact hl
theorem mem_swapAt {l : List α} {i : Nat} {m : α} (h : m ∈ swapAt l i) : m ∈ l := by
  unfold swapAt at h
  split at h
  · rename_i a b ha hb
    rcases List.mem_or_eq_of_mem_set h with h | rfl
    · rcases List.mem_or_eq_of_mem_set h with h | rfl
      · exact h
      · exact List.mem_of_getElem? hb
    · exact List.mem_of_getElem? ha
  · exact h
theorem AllBuilt.swap (h : AllBuilt L.cfg e.line) : AllBuilt L.cfg e.swap.line := by
  unfold Ed.swap
  split
  · split
    · exact h
    · exact fun m hm => h m (mem_swapAt hm)
  · split
    · exact h
    · exact fun m hm => h m (mem_swapAt hm)
theorem AllBuilt.searchLoop (n : Nat) (it : ISt) (e : Ed) (h : AllBuilt L.cfg e.line) :
    AllBuilt L.cfg (searchLoop L n it e).line := by
  induction n generalizing it e with
  | zero => exact h
  | succ n ih =>
    unfold Ed.searchLoop
    have hf := getKey_ed_fields e
    cases hk : getKey e with
    | mk k e' =>
      rw [hk] at hf
      have h' : AllBuilt L.cfg e'.line := by
        have := hf.1
        dsimp only at this
        rw [this]; exact h
      cases k with
      | none => exact h'
      | some key =>
        dsimp only
        split
        · exact ih _ _ h'
        split
        · apply AllBuilt.replace (e := Ed.killWhole e')
          intro m hm; cases hm
        split
        · exact h'
        split
        · exact ih _ _ h'
        split
        · exact ih _ _ h'
        split
        · exact ih _ _ h'
        · exact ih _ _ h'

theorem AllBuilt.call (h : AllBuilt L.cfg e.line) (c : Cmd) : AllBuilt L.cfg (Ed.call L c e).1.line := by
  cases c with
  | acceptLine | custom | endOfLine | forwardWord => exact h
  | interrupt => intro m hm; cases hm
  | beginningOfLine | clearScreen | repaintOnNewline | backwardWord => simpa [Ed.call] using h
  | backwardChar => simp only [Ed.call]; split <;> simpa using h
  | forwardChar =>
    simp only [Ed.call]
    split
    · split
      · exact h.replace _ _
      · exact h
    · exact h
  | backwardDeleteChar => exact h.backspace
  | deleteChar => simpa [Ed.call] using h.delete (L := L) e.cursor 1
  | deleteOrAbort =>
    simp only [Ed.call]
    split
    · simpa using h.delete (L := L) e.cursor 1
    · exact h
  | killLine => exact h.take _
  | killWholeLine => intro m hm; cases hm
  | unixWordRubout =>
    simp only [Ed.call, Ed.wordRubout, predict_line]
    apply AllBuilt.delete; exact h
  | unixLineDiscard =>
    simp only [Ed.call, predict_line]
    apply AllBuilt.delete; exact h
  | quotedInsert =>
    simp only [Ed.call]
    have hf := getKey_ed_fields e
    cases hk : getKey e with
    | mk k e' =>
      rw [hk] at hf
      have h' : AllBuilt L.cfg e'.line := by
        have := hf.1
        dsimp only at this
        rw [this]; exact h
      cases k with
      | none => exact h'
      | some k => exact h'.type k
  | yank =>
    simp only [Ed.call]
    split
    · exact h
    · exact h.replace _ _
  | yankWithQuote =>
    simp only [Ed.call]
    split
    · exact h
    · exact h.replace _ _
  | swapChar => exact h.swap
  | undo => exact h.undo
  | previousHistory =>
    simp only [Ed.call, prevHist]
    split
    · exact h
    · split
      · exact h
      · exact AllBuilt.showHist
  | nextHistory =>
    simp only [Ed.call, nextHist]
    split
    · exact h
    · split
      · exact h
      · exact AllBuilt.showHist
  | isearchBackward => exact AllBuilt.searchLoop _ _ _ h
  | selfInsert k => exact h.type k
  | completion P =>
    show AllBuilt L.cfg (Ed.complete L P e).line
    rcases Ed.complete_cases L P e with hc | hc | ⟨pos, t, -, -, hc⟩ <;> rw [hc]
    · exact h
    · simpa using h
    · exact h.replace _ _

end Ed

/-- The observable effect of a step that goes on. -/
theorem step_obs {E : Env} {s s' : St} {k : Bytes} {rest : List Ev} (hb : BuiltinKeys E)
    (hi : s.input = .key k :: rest) (h : step E s = .ok (s', none)) :
    Obs s' (Ed.call E.logic (lookupCommand E k) { s.ed with input := rest }).1 ∧
      (Ed.call E.logic (lookupCommand E k) { s.ed with input := rest }).2 = .cont := by
  obtain ⟨h1, h2⟩ := step_key_ed hi rfl (BuiltinKeys.builtin hb k) h
  have hcont : (Ed.call E.logic (lookupCommand E k) { s.ed with input := rest }).2 = .cont := by
    by_cases hx : (Ed.call E.logic (lookupCommand E k) { s.ed with input := rest }).2 = .cont
    · exact hx
    · have := (h2 hx).1
      simp at this
  refine ⟨?_, hcont⟩
  rcases (h1 hcont).2 with he | ⟨-, he⟩
  · exact .of_ed he
  · exact .of_predict he

theorem resize_obs {E : Env} {s s' : St} {n : Int} {rest : List Ev}
    (hi : s.input = .resize n :: rest) {o : Option RLRes} (h : step E s = .ok (s', o)) :
    Obs s' { s.ed with input := rest } := .of_predict (step_resize_ed hi h).2

/-- A step that goes on handles a key or a resize. -/
theorem step_cases {E : Env} {s s' : St} (h : step E s = .ok (s', none)) :
    (∃ n rest, s.input = .resize n :: rest) ∨ (∃ k rest, s.input = .key k :: rest) := by
  cases hi : s.input with
  | nil => rw [step, hi] at h; cases h
  | cons ev rest =>
    cases ev with
    | err e => rw [step, hi] at h; cases h
    | resize n => exact Or.inl ⟨n, rest, rfl⟩
    | key k => exact Or.inr ⟨k, rest, rfl⟩

/-- In every session the line consists of whole units. -/
theorem reachable_built {E : Env} {w : World} {s : St} (hb : BuiltinKeys E) (h : Reachable E w s) :
    ∀ m ∈ s.line, Built E.cfg m := by
  induction h with
  | start h =>
    have := (Obs.of_ed (startSt_ed h).1).line
    rw [this]
    simp only [Ed.start, Ed.predict_line]
    exact segs_built _ _
  | @step s s' _ h ih =>
    rcases step_cases h with ⟨n, rest, hi⟩ | ⟨k, rest, hi⟩
    · rw [(resize_obs hi h).line]; exact ih
    · rw [(step_obs hb hi h).1.line]
      exact Ed.AllBuilt.call (L := E.logic) (e := { s.ed with input := rest }) ih _

theorem tailTidy_of {C : Cfg} {s : St} (hb : ∀ m ∈ s.line, Built C m) (ht : Tidy C s) :
    TailTidy C s.line := by
  intro m hm ho
  have hbm : Built C m := hb m (List.mem_of_mem_tail hm)
  have hu : m.write ∈ s.units.tail := by
    rw [St.units_eq, ← List.map_tail]
    exact List.mem_map.mpr ⟨m, hm, rfl⟩
  exact ht _ hu ((orphan_iff hbm).mp ho)

end Readline
