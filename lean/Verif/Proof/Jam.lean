import Verif.Proof.Invariant
import Verif.Proof.VisCall
import Verif.Proof.Ink
import Verif.Spec.Recall
/-!
# Sessions that are not calm

Two things hold in every session of built-in commands, calm or not: the positions stay inside the line,
and nothing but Undo can panic for another reason than the screen or the candidates.
If no loose joiner is in the line, then Undo panics exactly when what it has to take back is a
SwapChar at the end of the line: below such an entry the log is never read.
-/
namespace Readline
open Spec

variable {E : Env} {w : World} {s s' : St}

/-! ## Always -/

theorem repaint_inside (h : repaint E s = .ok s') : s'.inside := by
  obtain ⟨h1, h2, -, -, -, h6, h7, h8, h9⟩ := repaint_fields h
  have hl : s'.len = s.len := by rw [← ed_len, ← ed_len]; show (s'.line.length : Int) = s.line.length; rw [h6]
  unfold St.inside
  rw [h1, h2]
  rw [hl]
  exact ⟨h7, h8, h9⟩

theorem undo_inside {p : St × Result} (h : s.inside) (hc : cmdUndo E s = .ok p) : p.1.inside := by
  unfold cmdUndo at hc
  split at hc
  · cases pure_ok.mp hc; exact h
  · dsimp only at hc
    obtain ⟨b1, h1, hc⟩ := bind_ok.mp hc
    obtain ⟨s1, h2, hc⟩ := bind_ok.mp hc
    obtain ⟨s2, h3, hc⟩ := bind_ok.mp hc
    cases pure_ok.mp hc
    exact repaint_inside h3

theorem call_inside {c : Cmd} {p : St × Result} (hb : c.builtin = true) (h : s.inside) (hh : s.histOk E)
    (hc : Cmd.call E c s = .ok p) : p.1.inside := by
  by_cases hu : c = .undo
  · subst hu; exact undo_inside h hc
  · exact (call_wp hb h hh (fun e => absurd e hu)).ok hc

/-- Undo is about to use an entry that does not fit the line. -/
def Misfit (E : Env) (s : St) : Prop :=
  ∃ k rest u us, s.input = .key k :: rest ∧ lookupCommand E k = .undo ∧ s.undoes = u :: us ∧ ¬ u.fits s.len

theorem step_wp_misfit (hb : BuiltinKeys E) (h : s.inside) (hh : s.histOk E) (hm : ¬ Misfit E s) :
    Wp (Panic.expected E) (step E s) (fun p => p.1.inside) := by
  unfold step
  split
  · exact h
  · exact h
  · refine Wp.bind (Wp.weaken (Wp.mono (onResize_wp ?_) ?_) fun _ h => Or.inl h)
    · exact h
    · intro s1 _ h1; exact Wp.pure h1
  · rename_i k rest hi
    refine Wp.weaken (execCmd_wp (BuiltinKeys.builtin hb _) h hh (fun hk u us hu => ?_)) fun _ h => h.imp id (fun h => ⟨_, h⟩)
    exact Classical.not_not.mp fun hf => hm ⟨k, rest, u, us, hi, hk, hu, hf⟩

theorem step_error {p : Panic} (hb : BuiltinKeys E) (h : s.inside) (hh : s.histOk E) (hst : step E s = .error p) :
    p.expected E ∨ Misfit E s := by
  by_cases hm : Misfit E s
  · exact .inr hm
  · exact .inl ((step_wp_misfit hb h hh hm).error hst)

theorem step_inside (hb : BuiltinKeys E) (h : s.inside) (hh : s.histOk E) (hst : step E s = .ok (s', none)) :
    s'.inside ∧ s'.histOk E := by
  cases hi : s.input with
  | nil => rw [step, hi] at hst; cases hst
  | cons ev rest =>
    cases ev with
    | err e => rw [step, hi] at hst; cases hst
    | resize n =>
      obtain ⟨-, he⟩ := step_resize_ed hi hst
      refine ⟨?_, ?_⟩
      · unfold step at hst
        rw [hi] at hst
        obtain ⟨s1, h1, hst⟩ := bind_ok.mp hst
        cases hst
        exact (onResize_wp (s := { s with input := rest }) h).ok h1
      · have := congrArg Ed.histPtr he
        simp at this
        have this : s'.histPtr = s.histPtr := this
        unfold St.histOk; rw [this]; exact hh
    | key k =>
      obtain ⟨h1, h2⟩ := step_key_ed hi rfl (BuiltinKeys.builtin hb k) hst
      have hcont : (Ed.call E.logic (lookupCommand E k) { s.ed with input := rest }).2 = .cont := by
        by_cases hx : (Ed.call E.logic (lookupCommand E k) { s.ed with input := rest }).2 = .cont
        · exact hx
        · have := (h2 hx).1
          simp at this
      obtain ⟨-, h1⟩ := h1 hcont
      refine ⟨?_, ?_⟩
      · rw [step_key hi] at hst
        unfold execCmd at hst
        obtain ⟨⟨s1, rc⟩, h3, hst⟩ := bind_ok.mp hst
        have hin := call_inside (s := ({ s.emit .await with input := rest } : St).emit .cursorOff) (BuiltinKeys.builtin hb k) h hh h3
        dsimp only at hst
        cases rc with
        | cont => cases pure_ok.mp hst; exact hin
        | _ =>
          obtain ⟨⟨s2, r⟩, -, hst⟩ := bind_ok.mp hst
          cases hst
      · have e : s'.histPtr = (Ed.call E.logic (lookupCommand E k) { s.ed with input := rest }).1.histPtr := by
          rcases h1 with he | ⟨-, he⟩
          · exact congrArg Ed.histPtr he
          · have := congrArg Ed.histPtr he; simp at this; exact this
        unfold St.histOk
        rw [e]
        exact Ed.call_histOk E.logic _ _ hh.1 hh.2

theorem reachable_inside (hb : BuiltinKeys E) (hc : 0 ≤ w.cursor) (h : Reachable E w s) : s.inside ∧ s.histOk E := by
  induction h with
  | start h => exact ⟨(start_inv hc h).inside, (start_inv hc h).hist⟩
  | step _ hst ih => exact step_inside hb ih.1 ih.2 hst

/-! ## The log below a jam is not read -/

namespace Ed
variable {L : Logic} {e : Ed} {b : List Undo}

/-- More entries at the bottom of the log. -/
def over (e : Ed) (b : List Undo) : Ed := { e with undoes := e.undoes ++ b }

theorem over_predict : predict L (e.over b) = (predict L e).over b := by
  unfold predict over
  repeat' split
  all_goals rfl

theorem over_insert (pos : Int) (t : Bytes) : (e.over b).insert L pos t = (e.insert L pos t).over b := rfl

theorem over_delete (pos n : Int) : (e.over b).delete pos n = (e.delete pos n).over b := by
  unfold delete
  show (if n ≤ 0 ∨ e.len < pos + n then _ else _) = _
  split <;> rfl

/-- The first entry below cannot be joined with an insertion. -/
def Jam : List Undo → Prop
  | [] => False
  | p :: _ => p.del ≠ 0 ∧ p.text ≠ []

theorem over_join {u : Undo} {us : List Undo} (hb : Jam b) (hu : u.text = []) :
    joinUndoes (u :: (us ++ b)) = joinUndoes (u :: us) ++ b ∨
    us = [] ∧ u.del = 0 ∧ joinUndoes (u :: (us ++ b)) = b := by
  cases us with
  | cons u1 us =>
    left
    simp only [List.cons_append, joinUndoes]
    repeat' split
    all_goals rfl
  | nil =>
    cases b with
    | nil => exact hb.elim
    | cons p r =>
      simp only [List.nil_append, joinUndoes]
      by_cases h1 : p.pos ≠ u.pos
      · left; rw [if_pos h1]; rfl
      rw [if_neg h1, if_neg (by rw [hu]; simp)]
      by_cases h2 : u.del = 0
      · right
        refine ⟨trivial, h2, ?_⟩
        rw [if_neg (by rw [h2]; simp), if_neg hb.2, if_neg hb.1]
      · left
        rw [if_pos ⟨hb.1, h2⟩]
        rfl

theorem over_backspace : backspace L (e.over b) = (backspace L e).over b := by
  unfold backspace
  show (if e.cursor > 0 then _ else _) = _
  split
  · rw [← over_predict]
    congr 1
    exact over_delete (e := { e with cursor := e.cursor - 1 }) _ _
  · rfl

theorem over_typeTail (t : Bytes) : typeTail L (e.over b) t = (typeTail L e t).over b := by
  unfold typeTail
  rw [← over_predict]
  rfl

theorem over_type (k : Bytes) : type L (e.over b) k = (type L e k).over b := by
  unfold type
  dsimp only
  have h1 : (e.over b).line = e.line := rfl
  have h2 : (e.over b).cursor = e.cursor := rfl
  have h3 : (e.over b).pending = e.pending := rfl
  rw [h1, h2, h3]
  split
  · exact over_backspace (e := { e with pending := (e.line[(e.cursor - 1).toNat]?).elim [] Moji.write ++ stripAlt k })
  · split
    · rw [over_backspace, over_typeTail]
    · split
      · exact over_typeTail (e := { e with pending := [] }) _
      · exact over_typeTail _

theorem over_killWhole : killWhole (e.over b) = (killWhole e).over b := rfl

theorem over_showHist : showHist L (e.over b) = (showHist L e).over b := by
  unfold showHist
  dsimp only
  rw [over_killWhole]
  have : getHist L ((killWhole e).over b) = getHist L (killWhole e) := rfl
  rw [this]
  split <;> rfl

theorem over_saveHist : saveHist L (e.over b) = (saveHist L e).over b := by
  unfold saveHist
  show (if e.histPtr < histLen L ∧ histAt L e.histPtr = e.text then _ else _) = _
  split <;> rfl

theorem over_prevHist : prevHist L (e.over b) = (prevHist L e).over b := by
  unfold prevHist
  have h : (e.over b).histPtr = e.histPtr := rfl
  rw [h]
  dsimp only
  split
  · rfl
  split
  · rfl
  split
  · have := over_saveHist (L := L) (e := { e with histPtr := histLen L + 1 }) (b := b)
    have e2 : ({ e.over b with histPtr := histLen L + 1 } : Ed) = ({ e with histPtr := histLen L + 1 } : Ed).over b := rfl
    rw [e2, this]
    exact over_showHist (e := { saveHist L _ with histPtr := _ })
  · rw [over_saveHist]
    exact over_showHist (e := { saveHist L e with histPtr := _ })

theorem over_nextHist : nextHist L (e.over b) = (nextHist L e).over b := by
  unfold nextHist
  have h : (e.over b).histPtr = e.histPtr := rfl
  rw [h]
  dsimp only
  split
  · rfl
  split
  · rfl
  · rw [over_saveHist]
    exact over_showHist (e := { saveHist L e with histPtr := _ })

theorem over_getKey : getKey (e.over b) = ((getKey e).1, (getKey e).2.over b) := by
  unfold getKey
  have h : (e.over b).input = e.input := rfl
  rw [h]
  repeat' split
  all_goals rfl

theorem over_swap : swap (e.over b) = (swap e).over b := by
  unfold swap
  show (if e.len = e.cursor then _ else _) = _
  split
  · show (if e.cursor < 2 then _ else _) = _
    split <;> rfl
  · show (if e.cursor < 1 then _ else _) = _
    split <;> rfl

theorem over_wordRubout : wordRubout L (e.over b) = (wordRubout L e).over b := by
  unfold wordRubout
  dsimp only
  rw [← over_predict]
  congr 1
  have := over_delete (b := b) (e := { e with clip := L.clipSet e.clip (lineText ((e.line.take e.cursor.toNat).drop
    (wordTop L e.line (skipSpaces e.line e.cursor.toNat)).toNat)) }) (wordTop L e.line (skipSpaces e.line e.cursor.toNat))
    (e.cursor - wordTop L e.line (skipSpaces e.line e.cursor.toNat))
  exact congrArg (fun x : Ed => { x with cursor := wordTop L e.line (skipSpaces e.line e.cursor.toNat) }) this

/-- Replacing something. -/
theorem over_replace {pos : Int} {t : Bytes} (hb : Jam b) :
    replace L (e.over b) pos t = (replace L e pos t).over b ∨
    e.delete pos (e.cursor - pos) = e ∧ e.undoes = [] ∧ segs L.cfg t = [] ∧
      replace L (e.over b) pos t = ({ replace L e pos t with undoes := [] } : Ed).over b := by
  unfold replace
  have hc : (e.over b).cursor = e.cursor := rfl
  rw [hc, over_delete, over_insert]
  dsimp only
  rcases over_join (us := (e.delete pos (e.cursor - pos)).undoes) hb
    (u := ⟨pos, (segs L.cfg t).length, []⟩) rfl with h | ⟨h1, h2, h3⟩
  · left
    rw [← over_predict]
    congr 1
    show ({ (e.delete pos (e.cursor - pos)).insert L pos t with
      cursor := _, undoes := joinUndoes (_ :: ((e.delete pos (e.cursor - pos)).undoes ++ b)) } : Ed) = _
    rw [h]
    rfl
  · right
    have hd : e.delete pos (e.cursor - pos) = e := by
      unfold delete at h1 ⊢
      split
      · rfl
      · rename_i hx; rw [if_neg hx] at h1; cases h1
    refine ⟨hd, by rw [hd] at h1; exact h1, List.length_eq_zero_iff.mp h2, ?_⟩
    have : (({ predict L { (e.delete pos (e.cursor - pos)).insert L pos t with
        cursor := pos + (segs L.cfg t).length,
        undoes := joinUndoes ((e.delete pos (e.cursor - pos)).insert L pos t).undoes } with undoes := [] } : Ed).over b) =
        (predict L { (e.delete pos (e.cursor - pos)).insert L pos t with
          cursor := pos + (segs L.cfg t).length, undoes := b }) := by
      unfold predict over
      repeat' split
      all_goals rfl
    rw [this]
    congr 1
    show ({ (e.delete pos (e.cursor - pos)).insert L pos t with
      cursor := _, undoes := joinUndoes (_ :: ((e.delete pos (e.cursor - pos)).undoes ++ b)) } : Ed) = _
    rw [h3]

theorem over_searchLoop (hb : Jam b) (n : Nat) (it : ISt) (e : Ed) :
    searchLoop L n it (e.over b) = (searchLoop L n it e).over b := by
  induction n generalizing it e with
  | zero => rfl
  | succ n ih =>
    unfold searchLoop
    rw [over_getKey]
    cases hk : getKey e with
    | mk k e' =>
      cases k with
      | none => rfl
      | some key =>
        dsimp only
        split
        · exact ih _ _
        split
        · rcases over_replace (e := killWhole e') (pos := 0) (t := it.found) (L := L) hb with h | ⟨-, h, -⟩
          · exact h
          · cases h
        split
        · rfl
        split
        · exact ih _ _
        split
        · exact ih _ _
        split
        · exact ih _ _
        · exact ih _ _

theorem over_complete (hb : Jam b) (P : Completing) (h1 : e.cursor ≤ e.line.length) :
    complete L P (e.over b) = (complete L P e).over b := by
  unfold complete
  have hl : (e.over b).line = e.line := rfl
  have hc : (e.over b).cursor = e.cursor := rfl
  rw [hl, hc]
  cases hx : completionOf P.uni P.completer P.postfix_ ((e.line.take e.cursor.toNat).map Moji.write) with
  | crash | nothing => rfl
  | bell l =>
    dsimp only
    split
    · exact over_predict
    · rfl
  | insert pos t =>
    dsimp only
    have hp := completionOf_pos hx
    simp only [List.length_map, List.length_take] at hp
    rcases over_replace (e := e) (pos := pos) (t := t) (L := L) hb with h | ⟨h, -⟩
    · exact h
    · unfold delete at h
      rw [if_neg (by simp only [len]; omega)] at h
      have := congrArg (fun e : Ed => e.undoes.length) h
      simp at this

/-- A command on a log with a jam below does what it does without, and leaves the jam where it is. -/
theorem over_undo {L : Logic} {e : Ed} {b : List Undo} {hs : List (List Moji)} (h : Inv L e hs) (hu : hs ≠ []) :
    undo L (e.over b) = (undo L e).over b := by
  have hlog := h.log
  cases hus : e.undoes with
  | nil =>
    rw [hus] at hlog
    cases hs with
    | nil => exact absurd rfl hu
    | cons => exact hlog.elim
  | cons u rest =>
    unfold undo
    have : (e.over b).undoes = u :: (rest ++ b) := by show e.undoes ++ b = _; rw [hus]; rfl
    rw [this, hus]
    dsimp only
    rw [← over_predict]
    congr 1
    split <;> rfl

theorem call_over {hs : List (List Moji)} {c : Cmd} (hb : Jam b) (hc : c.builtin = true)
    (h : Inv L e hs) (h0 : 0 ≤ e.cursor) (h1 : e.cursor ≤ e.line.length) (ht : TailTidy L.cfg e.line)
    (hn : c = .swapChar → ¬ (e.cursor = e.line.length ∧ 2 ≤ e.line.length))
    (hi : c ≠ .interrupt) (hu : c = .undo → hs ≠ []) :
    ∃ e' hs', (call L c (e.over b)).1 = e'.over b ∧ Inv L e' hs' ∧ Snap c e.line hs e'.line hs' := by
  obtain ⟨hs', g1, g2⟩ := call_inv hc h h0 h1 ht hn
  have frame : (call L c (e.over b)).1 = (call L c e).1.over b →
      ∃ e' hs', (call L c (e.over b)).1 = e'.over b ∧ Inv L e' hs' ∧ Snap c e.line hs e'.line hs' :=
    fun f => ⟨_, hs', f, g1, g2⟩
  have rep : ∀ t, c ≠ .undo → (call L c (e.over b)).1 = replace L (e.over b) e.cursor t →
      (call L c e).1 = replace L e e.cursor t →
      ∃ e' hs', (call L c (e.over b)).1 = e'.over b ∧ Inv L e' hs' ∧ Snap c e.line hs e'.line hs' := by
    intro t hcu f1 f2
    rcases over_replace (e := e) (pos := e.cursor) (t := t) (L := L) hb with f | ⟨-, f3, f4, f⟩
    · exact frame (by rw [f1, f, f2])
    · have hl : (replace L e e.cursor t).line = e.line := by
        rw [(replace_inv t h h0 h1).1, f4, List.append_nil, List.take_append_drop]
      have hlog := h.log
      rw [f3] at hlog
      refine ⟨{ replace L e e.cursor t with undoes := [] }, hs, by rw [f1, f], ⟨by show ∀ m ∈ (replace L e e.cursor t).line, _; rw [hl]; exact h.built, ?_⟩,
        .keep hl (fun hx => absurd hx hcu)⟩
      show UndoLog L.cfg [] (replace L e e.cursor t).line hs
      cases hs with
      | nil => trivial
      | cons => exact hlog.elim
  cases c with
  | custom => simp [Cmd.builtin] at hc
  | interrupt => exact absurd rfl hi
  | completion P => exact frame (over_complete hb P h1)
  | acceptLine => exact frame rfl
  | beginningOfLine => exact frame (over_predict (e := { e with cursor := 0 }))
  | backwardChar =>
    refine frame ?_
    show (if e.cursor ≤ 0 then e.over b else _) = Ed.over (if e.cursor ≤ 0 then e else _) b
    split
    · rfl
    · exact over_predict (e := { e with cursor := e.cursor - 1 })
  | endOfLine => exact frame rfl
  | forwardChar =>
    by_cases hx : e.cursor ≥ e.len ∧ e.suffixList.length > 0
    · refine rep (lineText e.suffixList) nofun ?_ ?_
      · show (if e.cursor ≥ e.len then if e.suffixList.length > 0 then _ else _ else _) = _
        rw [if_pos hx.1, if_pos hx.2]
        rfl
      · show (if e.cursor ≥ e.len then if e.suffixList.length > 0 then _ else _ else _) = _
        rw [if_pos hx.1, if_pos hx.2]
    · refine frame ?_
      show (if e.cursor ≥ e.len then if e.suffixList.length > 0 then _ else _ else _) =
        Ed.over (if e.cursor ≥ e.len then if e.suffixList.length > 0 then _ else _ else _) b
      split
      · rename_i h2
        rw [if_neg (fun h3 => hx ⟨h2, h3⟩), if_neg (fun h3 => hx ⟨h2, h3⟩)]
      · rfl
  | backwardDeleteChar => exact frame over_backspace
  | deleteChar =>
    refine frame ?_
    show predict L ((e.over b).delete e.cursor 1) = _
    rw [over_delete, over_predict]
    rfl
  | deleteOrAbort =>
    refine frame ?_
    show (if e.len > 0 then (predict L ((e.over b).delete e.cursor 1), Result.cont) else (e.over b, .abort)).1 =
      Ed.over (if e.len > 0 then (predict L (e.delete e.cursor 1), Result.cont) else (e, .abort)).1 b
    split
    · show predict L ((e.over b).delete e.cursor 1) = _
      rw [over_delete, over_predict]
    · rfl
  | killLine => exact frame rfl
  | killWholeLine => exact frame rfl
  | unixWordRubout => exact frame over_wordRubout
  | unixLineDiscard =>
    refine frame ?_
    show predict L { delete (over { e with clip := L.clipSet e.clip (lineText (e.line.take e.cursor.toNat)) } b) 0 e.cursor with
      cursor := 0 } = _
    rw [over_delete]
    exact over_predict (e := { delete { e with clip := L.clipSet e.clip (lineText (e.line.take e.cursor.toNat)) } 0 e.cursor with
      cursor := 0 })
  | clearScreen => exact frame over_predict
  | repaintOnNewline => exact frame over_predict
  | quotedInsert =>
    refine frame ?_
    simp only [call]
    rw [over_getKey]
    cases hk : getKey e with
    | mk k e' =>
      cases k with
      | none => rfl
      | some k => exact over_type k
  | yank =>
    cases hx : e.clip with
    | none =>
      refine frame ?_
      simp only [call]
      rw [show (e.over b).clip = none from hx, hx]
    | some t =>
      refine rep (trimRightCRLFNUL t) nofun ?_ ?_
      · simp only [call]
        rw [show (e.over b).clip = some t from hx]
        rfl
      · simp only [call]
        rw [hx]
  | yankWithQuote =>
    cases hx : e.clip with
    | none =>
      refine frame ?_
      simp only [call]
      rw [show (e.over b).clip = none from hx, hx]
    | some t =>
      refine rep (quoteText t) nofun ?_ ?_
      · simp only [call]
        rw [show (e.over b).clip = some t from hx]
        rfl
      · simp only [call]
        rw [hx]
  | swapChar => exact frame over_swap
  | backwardWord => exact frame (over_predict (e := { e with cursor := skipWord e.line (skipSpaces e.line e.cursor.toNat) }))
  | forwardWord => exact frame rfl
  | undo =>
    exact frame (over_undo h (hu rfl))
  | previousHistory => exact frame over_prevHist
  | nextHistory => exact frame over_nextHist
  | isearchBackward => exact frame (over_searchLoop hb _ _ e)
  | selfInsert k => exact frame (over_type k)

end Ed

/-! ## Sessions without loose joiners -/

theorem Ed.swap_atEnd {e : Ed} (h : (e.line.length : Int) = e.cursor) (h2 : 2 ≤ e.cursor) :
    e.swap.line = swapAt e.line (e.cursor - 2).toNat ∧
      e.swap.undoes = { pos := e.cursor, del := 2, text := lineText (e.line.drop (e.cursor - 2).toNat) } :: e.undoes := by
  unfold Ed.swap
  rw [if_pos (show e.len = e.cursor from h), if_neg (by omega)]
  exact ⟨rfl, rfl⟩

/-- What holds whenever a key is awaited: Undo will bring back the lines `hs`, and then, if `jam`, panic. -/
structure JInv (E : Env) (s : St) (hs : List (List Moji)) (jam : Bool) : Prop where
  inside : s.inside
  hist : s.histOk E
  log : ∃ X b, s.undoes = X ++ b ∧ Ed.Inv E.logic { s.ed with undoes := X } hs ∧
    (jam = false → b = []) ∧
    (jam = true → ∃ p r, b = p :: r ∧ p.del = 2 ∧ p.text ≠ [] ∧ p.pos = ((s.line :: hs).getLastD []).length)

theorem start_jam (hc : 0 ≤ w.cursor) (h : startSt E w = .ok s) : JInv E s [[]] false := by
  have hi := start_inv hc h
  exact ⟨hi.inside, hi.hist, s.undoes, [], (List.append_nil _).symm, hi.ed, fun _ => rfl, nofun⟩

theorem JInv.tailTidy {hs : List (List Moji)} {jam : Bool} (h : JInv E s hs jam) (ht : Tidy E.cfg s) :
    TailTidy E.cfg s.line := by
  obtain ⟨X, b, -, hx, -⟩ := h.log
  intro m hm ho
  have hbm : Built E.cfg m := hx.built m (List.mem_of_mem_tail hm)
  have hu : m.write ∈ s.units.tail := by
    rw [St.units_eq, ← List.map_tail]
    exact List.mem_map.mpr ⟨m, hm, rfl⟩
  exact ht _ hu ((orphan_iff hbm).mp ho)

/-- Undo fits as long as it is not the jam. -/
theorem JInv.fits {hs : List (List Moji)} {jam : Bool} (h : JInv E s hs jam) (hj : jam = true → hs ≠ []) :
    ∀ u rest, s.undoes = u :: rest → u.fits s.len := by
  intro u rest hu
  obtain ⟨X, b, e, hx, h1, h2⟩ := h.log
  have hl := hx.log
  have hl : UndoLog E.logic.cfg X s.line hs := hl
  cases X with
  | nil =>
    cases hs with
    | cons => exact hl.elim
    | nil =>
      cases jam with
      | true => exact absurd rfl (hj rfl)
      | false =>
        rw [e, h1 rfl] at hu
        cases hu
  | cons x X =>
    cases hs with
    | nil => exact hl.elim
    | cons y hs =>
      rw [e] at hu
      cases hu
      have := hl.1
      rw [← ed_len]
      exact this

/-- Undo of the jam panics. -/
theorem JInv.panics {k : Bytes} {rest : List Ev} (h : JInv E s [] true) (hi : s.input = .key k :: rest)
    (hk : lookupCommand E k = .undo) : ∃ p, step E s = .error p ∧ p.kind = .bounds := by
  obtain ⟨X, b, e, hx, -, h2⟩ := h.log
  obtain ⟨p, r, rfl, d, t, hp⟩ := h2 rfl
  have hl : UndoLog E.logic.cfg X s.line [] := hx.log
  cases X with
  | cons => exact hl.elim
  | nil =>
    have e : s.undoes = p :: r := e
    have hp : p.pos = s.line.length := hp
    have hlen : (s.line.length : Int) = s.len := ed_len s
    rw [step_key hi, hk]
    unfold execCmd
    show ∃ q, (cmdUndo E _ >>= _) = Except.error q ∧ _
    unfold cmdUndo
    have e' : (({ s.emit .await with input := rest } : St).emit .cursorOff).undoes = p :: r := e
    rw [e']
    dsimp only
    rw [if_pos (by omega)]
    unfold bufDelete
    rw [if_neg]
    · exact ⟨_, rfl, rfl⟩
    · show ¬ (0 ≤ p.pos ∧ p.pos + p.del ≤ s.len)
      omega

theorem step_jam {hs : List (List Moji)} {jam : Bool} (hb : BuiltinKeys E) (h : JInv E s hs jam)
    (ht : Tidy E.cfg s) (hst : step E s = .ok (s', none)) :
    ∃ hs' jam', JInv E s' hs' jam' ∧
      ((∃ n rest, s.input = .resize n :: rest ∧ s'.line = s.line ∧ hs' = hs ∧ jam' = jam) ∨
       (∃ k rest, s.input = .key k :: rest ∧ ¬ EndSwap E s k ∧ (lookupCommand E k = .undo → jam = true → hs ≠ []) ∧
          Snap (lookupCommand E k) s.line hs s'.line hs' ∧ jam' = jam ∧ lookupCommand E k ≠ .interrupt) ∨
       (∃ k rest, s.input = .key k :: rest ∧ EndSwap E s k ∧ hs' = [] ∧ jam' = true)) := by
  obtain ⟨hin, hho⟩ := step_inside hb h.inside h.hist hst
  obtain ⟨X, b, hX, hx, j1, j2⟩ := h.log
  cases hi : s.input with
  | nil => rw [step, hi] at hst; cases hst
  | cons ev rest =>
    cases ev with
    | err e => rw [step, hi] at hst; cases hst
    | resize n =>
      obtain ⟨-, he⟩ := step_resize_ed hi hst
      have hl : s'.line = s.line := by
        have := congrArg Ed.line he
        simp at this
        exact this
      have hu : s'.undoes = s.undoes := by
        have := congrArg Ed.undoes he
        simp at this
        exact this
      refine ⟨hs, jam, ⟨hin, hho, X, b, by rw [hu, hX], ⟨?_, ?_⟩, j1, ?_⟩, Or.inl ⟨n, rest, rfl, hl, rfl, rfl⟩⟩
      · show ∀ m ∈ s'.line, _; rw [hl]; exact hx.built
      · show UndoLog _ X s'.line hs; rw [hl]; exact hx.log
      · rw [hl]; exact j2
    | key k =>
      have hlen : (s.line.length : Int) = s.len := ed_len s
      obtain ⟨h1, h2⟩ := step_key_ed hi rfl (BuiltinKeys.builtin hb k) hst
      have hcont : (Ed.call E.logic (lookupCommand E k) { s.ed with input := rest }).2 = .cont := by
        by_cases hy : (Ed.call E.logic (lookupCommand E k) { s.ed with input := rest }).2 = .cont
        · exact hy
        · have := (h2 hy).1
          simp at this
      obtain ⟨-, h1⟩ := h1 hcont
      have hni : lookupCommand E k ≠ .interrupt := by
        intro hc
        rw [hc] at hcont
        cases hcont
      have hline : s'.line = (Ed.call E.logic (lookupCommand E k) { s.ed with input := rest }).1.line := by
        rcases h1 with he | ⟨-, he⟩
        · exact congrArg Ed.line he
        · have := congrArg Ed.line he; simp at this; exact this
      have hund : s'.undoes = (Ed.call E.logic (lookupCommand E k) { s.ed with input := rest }).1.undoes := by
        rcases h1 with he | ⟨-, he⟩
        · exact congrArg Ed.undoes he
        · have := congrArg Ed.undoes he; simp at this; exact this
      by_cases hes : EndSwap E s k
      · have he1 : ((({ s.ed with input := rest } : Ed).line.length : Nat) : Int) = ({ s.ed with input := rest } : Ed).cursor := by
          show (s.line.length : Int) = s.cursor
          rw [hes.2.1, hlen]
        have he2 : 2 ≤ ({ s.ed with input := rest } : Ed).cursor := by
          show 2 ≤ s.cursor
          rw [hes.2.1]; exact hes.2.2
        refine ⟨[], true, ⟨hin, hho, [], s'.undoes, rfl, ⟨?_, trivial⟩, nofun, fun _ => ?_⟩,
          Or.inr (Or.inr ⟨k, rest, rfl, hes, rfl, rfl⟩)⟩
        · -- the units are the same
          show ∀ m ∈ s'.line, _
          rw [hline, hes.1]
          intro m hm
          have hm : m ∈ (Ed.swap { s.ed with input := rest }).line := hm
          rw [(Ed.swap_atEnd he1 he2).1] at hm
          have hp : (s.cursor - 2).toNat + 1 < s.line.length := by have := hes.2.1; have := hes.2.2; omega
          obtain ⟨a, c, hac, hsw⟩ := Ed.swapAt_eq (l := s.line) hp
          have hm : m ∈ swapAt s.line (s.cursor - 2).toNat := hm
          rw [hsw] at hm
          simp only [List.mem_append, List.mem_cons, List.not_mem_nil, or_false] at hm
          have hmem : ∀ y, y = a ∨ y = c → y ∈ s.line := by
            intro y hy
            have : y ∈ (s.line.drop (s.cursor - 2).toNat).take 2 := by
              rw [hac]; rcases hy with rfl | rfl <;> simp
            exact List.mem_of_mem_drop (List.mem_of_mem_take this)
          rcases hm with (hm | hm | hm) | hm
          · exact hx.built m (List.mem_of_mem_take hm)
          · exact hx.built m (hmem m (Or.inr hm))
          · exact hx.built m (hmem m (Or.inl hm))
          · exact hx.built m (List.mem_of_mem_drop hm)
        · have e1 : s'.undoes = { pos := s.cursor, del := 2, text := lineText (s.line.drop (s.cursor - 2).toNat) } :: s.undoes := by
            rw [hund, hes.1]
            show (Ed.swap { s.ed with input := rest }).undoes = _
            rw [(Ed.swap_atEnd he1 he2).2]
            rfl
          have e2 : s'.line.length = s.line.length := by
            rw [hline, hes.1]
            show (Ed.swap { s.ed with input := rest }).line.length = _
            rw [(Ed.swap_atEnd he1 he2).1]
            exact swapAt_length _ _
          refine ⟨_, _, e1, rfl, ?_, ?_⟩
          · have hp : (s.cursor - 2).toNat < s.line.length := by have := hes.2.1; have := hes.2.2; omega
            show lineText (s.line.drop (s.cursor - 2).toNat) ≠ []
            rw [List.drop_eq_getElem_cons hp]
            intro h0
            have : (s.line[(s.cursor - 2).toNat]).write ++ _ = [] := h0
            exact Moji.write_ne _ (List.append_eq_nil_iff.mp this).1
          · show s.cursor = ((s'.line).length : Int)
            rw [e2, hlen, hes.2.1]
      · have hn : lookupCommand E k = .swapChar → ¬ (s.cursor = s.line.length ∧ 2 ≤ s.line.length) := by
          rintro hc ⟨y1, y2⟩
          exact hes ⟨hc, by rw [y1, hlen], by omega⟩
        have hc0 : 0 ≤ s.cursor := Int.le_trans h.inside.1 h.inside.2.1
        have hc1 : s.cursor ≤ s.line.length := by rw [hlen]; exact h.inside.2.2
        cases jam with
        | false =>
          cases j1 rfl
          rw [List.append_nil] at hX
          obtain ⟨hs', g1, g2⟩ := Ed.call_inv (L := E.logic) (e := { s.ed with input := rest }) (hs := hs)
            (BuiltinKeys.builtin hb k) ⟨hx.built, by rw [show ({ s.ed with input := rest } : Ed).undoes = X from hX]; exact hx.log⟩
            hc0 hc1 (h.tailTidy ht) hn
          refine ⟨hs', false, ⟨hin, hho, s'.undoes, [], (List.append_nil _).symm, ⟨?_, ?_⟩, fun _ => rfl, nofun⟩,
            Or.inr (Or.inl ⟨k, rest, rfl, hes, nofun, ?_, rfl, hni⟩)⟩
          · show ∀ m ∈ s'.line, _; rw [hline]; exact g1.built
          · show UndoLog _ s'.undoes s'.line hs'; rw [hline, hund]; exact g1.log
          · rw [hline]; exact g2
        | true =>
          obtain ⟨p, r, rfl, d, t, hp⟩ := j2 rfl
          by_cases hu : lookupCommand E k = .undo → hs ≠ []
          · have hJ : Ed.Jam (p :: r) := ⟨by omega, t⟩
            obtain ⟨e', hs', g0, g1, g2⟩ := Ed.call_over (L := E.logic) (e := { s.ed with undoes := X, input := rest }) (hs := hs)
              hJ (BuiltinKeys.builtin hb k) ⟨hx.built, hx.log⟩ hc0 hc1 (h.tailTidy ht) hn hni hu
            have ee : ({ s.ed with undoes := X, input := rest } : Ed).over (p :: r) = { s.ed with input := rest } := by
              unfold Ed.over
              show ({ s.ed with undoes := X ++ p :: r, input := rest } : Ed) = _
              rw [← hX]
              rfl
            rw [ee] at g0
            rw [g0] at hline hund
            have hline : s'.line = e'.line := hline
            refine ⟨hs', true, ⟨hin, hho, e'.undoes, p :: r, hund, ⟨?_, ?_⟩, nofun, fun _ => ⟨p, r, rfl, d, t, ?_⟩⟩,
              Or.inr (Or.inl ⟨k, rest, rfl, hes, fun hy _ => hu hy, ?_, rfl, hni⟩)⟩
            · show ∀ m ∈ s'.line, _; rw [hline]; exact g1.built
            · show UndoLog _ e'.undoes s'.line hs'; rw [hline]; exact g1.log
            · rw [hline, g2.last hni, hp]
              rfl
            · rw [hline]; exact g2
          · exfalso
            have hu' : lookupCommand E k = .undo := by
              by_cases hy : lookupCommand E k = .undo
              · exact hy
              · exact absurd (fun h => absurd h hy) hu
            have hs0 : hs = [] := by
              by_cases hy : hs = []
              · exact hy
              · exact absurd (fun _ => hy) hu
            subst hs0
            obtain ⟨q, hq, -⟩ := h.panics hi hu'
            rw [hq] at hst
            cases hst

/-- With earlier states tidy there is such an invariant, and the lines are those remembered. -/
theorem tidy_jam {w : World} (hb : BuiltinKeys E) (hc : 0 ≤ w.cursor) (h : TidyReachable E w s) :
    ∃ hs jam, JInv E s hs jam ∧ Regains E w s (hs.map (·.map Moji.write)) jam ∧
      (jam = false → (s.line :: hs).getLastD [] = []) := by
  induction h with
  | start h => exact ⟨[[]], false, start_jam hc h, .start h, fun _ => rfl⟩
  | @step s s' hr ht hst ih =>
    obtain ⟨hs, jam, h1, h2, h3⟩ := ih
    obtain ⟨hs', jam', h1', h4⟩ := step_jam hb h1 ht hst
    refine ⟨hs', jam', h1', ?_⟩
    rcases h4 with ⟨n, rest, hi, hl, rfl, rfl⟩ | ⟨k, rest, hi, hes, hu, hsn, rfl, hne⟩ | ⟨k, rest, hi, hes, rfl, rfl⟩
    · exact ⟨.resize h2 hi hst, by rw [hl]; exact h3⟩
    · refine ⟨.key h2 hi hst hes (fun h j => by simpa using hu h j) ?_, ?_⟩
      · have := hsn.map (f := Moji.write)
        rwa [← St.units_eq, ← St.units_eq] at this
      · rw [hsn.last hne]; exact h3
    · exact ⟨.swap h2 hi hst hes, nofun⟩

theorem step_resize_jam {s' : St} {hs : List (List Moji)} {jam : Bool} {n : Int} {rest : List Ev} (hb : BuiltinKeys E)
    (h : JInv E s hs jam) (hi : s.input = .resize n :: rest) (hst : step E s = .ok (s', none)) :
    JInv E s' hs jam ∧ s'.line = s.line := by
  obtain ⟨hin, hho⟩ := step_inside hb h.inside h.hist hst
  obtain ⟨X, b, hX, hx, j1, j2⟩ := h.log
  obtain ⟨-, he⟩ := step_resize_ed hi hst
  have hl : s'.line = s.line := by
    have := congrArg Ed.line he
    simp at this
    exact this
  have hu : s'.undoes = s.undoes := by
    have := congrArg Ed.undoes he
    simp at this
    exact this
  refine ⟨⟨hin, hho, X, b, by rw [hu, hX], ⟨?_, ?_⟩, j1, ?_⟩, hl⟩
  · show ∀ m ∈ s'.line, _; rw [hl]; exact hx.built
  · show UndoLog _ X s'.line hs; rw [hl]; exact hx.log
  · rw [hl]; exact j2

theorem step_undo_jam {s' : St} {hs : List (List Moji)} {jam : Bool} {k : Bytes} {rest : List Ev} (hb : BuiltinKeys E)
    (h : JInv E s hs jam) (hi : s.input = .key k :: rest) (hk : lookupCommand E k = .undo) (hst : step E s = .ok (s', none)) :
    JInv E s' hs.tail jam ∧ s'.line = hs.headD s.line ∧ (jam = true → hs ≠ []) := by
  obtain ⟨hin, hho⟩ := step_inside hb h.inside h.hist hst
  obtain ⟨X, b, hX, hx, j1, j2⟩ := h.log
  obtain ⟨h1, h2⟩ := step_key_ed hi rfl (BuiltinKeys.builtin hb k) hst
  have hcall : Ed.call E.logic (lookupCommand E k) { s.ed with input := rest } =
      (Ed.undo E.logic { s.ed with input := rest }, .cont) := by rw [hk]; rfl
  rw [hcall] at h1
  obtain ⟨-, h1⟩ := h1 rfl
  have hline : s'.line = (Ed.undo E.logic { s.ed with input := rest }).line := by
    rcases h1 with he | ⟨-, he⟩
    · exact congrArg Ed.line he
    · have := congrArg Ed.line he; simp at this; exact this
  have hund : s'.undoes = (Ed.undo E.logic { s.ed with input := rest }).undoes := by
    rcases h1 with he | ⟨-, he⟩
    · exact congrArg Ed.undoes he
    · have := congrArg Ed.undoes he; simp at this; exact this
  have hj : jam = true → hs ≠ [] := by
    rintro rfl rfl
    obtain ⟨q, hq, -⟩ := h.panics hi hk
    rw [hq] at hst
    cases hst
  obtain ⟨_, g1, gs, rfl, g2⟩ := Ed.undo_inv (L := E.logic) (e := { s.ed with undoes := X, input := rest })
    (hs := hs) ⟨hx.built, hx.log⟩
  have ee : ({ s.ed with undoes := X, input := rest } : Ed).over b = { s.ed with input := rest } := by
    unfold Ed.over
    show ({ s.ed with undoes := X ++ b, input := rest } : Ed) = _
    rw [← hX]
    rfl
  have ho : Ed.undo E.logic { s.ed with input := rest } =
      (Ed.undo E.logic { s.ed with undoes := X, input := rest }).over b := by
    cases jam with
    | false =>
      cases j1 rfl
      rw [← ee]
      have : ∀ e : Ed, e.over [] = e := fun e => by unfold Ed.over; rw [List.append_nil]
      rw [this, this]
    | true =>
      rw [← ee]
      exact Ed.over_undo (L := E.logic) (hs := hs) ⟨hx.built, hx.log⟩ (hj rfl)
  rw [ho] at hline hund
  have hline : s'.line = (Ed.undo E.logic { s.ed with undoes := X, input := rest }).line := hline
  refine ⟨⟨hin, hho, _, b, hund, ⟨?_, ?_⟩, j1, fun j => ?_⟩, ?_, hj⟩
  · show ∀ m ∈ s'.line, _; rw [hline]; exact g1.built
  · show UndoLog _ _ s'.line _; rw [hline]; exact g1.log
  · obtain ⟨p, r, e, d, t, hp⟩ := j2 j
    refine ⟨p, r, e, d, t, ?_⟩
    rw [hline, gs.last (by intro h; cases h), hp]
    rfl
  · rw [hline]; exact g2

/-- Undos walk back through the lines and never get beyond the jam. -/
theorem undos_jam {t : St} {n : Nat} {hs : List (List Moji)} {jam : Bool} (hb : BuiltinKeys E)
    (h : JInv E s hs jam) (hu : Undos E s n t) :
    JInv E t (hs.drop n) jam ∧ (s.line :: hs)[min n hs.length]? = some t.line ∧ (jam = true → n ≤ hs.length) := by
  induction hu with
  | none => exact ⟨h, by simp, fun _ => Nat.zero_le _⟩
  | resize _ hi hst ih =>
    obtain ⟨h1, h2⟩ := step_resize_jam hb ih.1 hi hst
    rw [h2]
    exact ⟨h1, ih.2⟩
  | @undo n t t' k rest _ hi hk hst ih =>
    obtain ⟨h1, h2, h3⟩ := step_undo_jam hb ih.1 hi hk hst
    rw [List.tail_drop] at h1
    refine ⟨h1, ?_, fun j => ?_⟩
    · rw [h2]
      by_cases hn : n < hs.length
      · rw [Nat.min_eq_left (by omega), List.getElem?_cons_succ, List.getElem?_eq_getElem hn,
          List.drop_eq_getElem_cons hn]
        rfl
      · have h3 := ih.2.1
        rw [Nat.min_eq_right (by omega)] at h3 ⊢
        rw [List.drop_eq_nil_of_le (by omega)]
        exact h3
    · have := h3 j
      by_cases hn : n < hs.length
      · exact hn
      · exact absurd (List.drop_eq_nil_of_le (by omega)) this

/-- A panic of a session without loose joiners: one of the known ones, or an Undo at a jam. -/
theorem tidy_step_error {w : World} {p : Panic} (hb : BuiltinKeys E) (hc : 0 ≤ w.cursor) (h : TidyReachable E w s)
    (hst : step E s = .error p) :
    p.expected E ∨ (p.kind = .bounds ∧ Regains E w s [] true ∧ ∃ k rest, s.input = .key k :: rest ∧ lookupCommand E k = .undo) := by
  obtain ⟨hs, jam, h1, h2, -⟩ := tidy_jam hb hc h
  rcases step_error hb h1.inside h1.hist hst with h3 | ⟨k, rest, u, us, hi, hk, hu, hf⟩
  · exact Or.inl h3
  · by_cases hj : jam = true → hs ≠ []
    · exact absurd (h1.fits hj u us hu) hf
    · have e1 : jam = true := by
        by_cases h : jam = true
        · exact h
        · exact absurd (fun h' => absurd h' h) hj
      have e2 : hs = [] := by
        by_cases h : hs = []
        · exact h
        · exact absurd (fun _ => h) hj
      subst e1 e2
      obtain ⟨q, hq, hq'⟩ := h1.panics hi hk
      rw [hq] at hst
      cases hst
      exact Or.inr ⟨hq', h2, k, rest, hi, hk⟩

end Readline
