import Verif.Props.C10
import Verif.Proof.Pending
import Verif.Model.Shell
import Verif.Spec.Clipboard
/-!
# C65: the clipboard holds the text that was cut last

`C65_partial`: in every session of built-in and completion commands each KillLine, UnixLineDiscard and
UnixWordRubout writes the text it takes out of the line to the clipboard, and nothing else writes to it; so if writing succeeds
the clipboard holds the text that was cut last, and Yank inserts it without the line ends behind it (`C65_yank`).  `C65_program`: this includes
texts cut in earlier calls of `ReadLine` on the same editor.
What is cut may be nothing, and then the clipboard is emptied (`C65_refuted_empty`); Escape removes the whole
line without keeping it (`C65_refuted_whole`).
-/
namespace Readline
open Spec

namespace Ed
variable {L : Logic} {e : Ed}

@[simp] theorem insert_clip (p : Int) (t : Bytes) : (e.insert L p t).clip = e.clip := rfl
@[simp] theorem replace_clip (p : Int) (t : Bytes) : (e.replace L p t).clip = e.clip := by
  simp [Ed.replace, delete_clip]
@[simp] theorem typeTail_clip (t : Bytes) : (e.typeTail L t).clip = e.clip := by
  simp [Ed.typeTail]
@[simp] theorem showHist_clip : (e.showHist L).clip = e.clip := by
  unfold Ed.showHist
  dsimp only
  split <;> rfl
@[simp] theorem saveHist_clip : (e.saveHist L).clip = e.clip := by
  simp only [Ed.saveHist]
  split <;> rfl
@[simp] theorem swap_clip : e.swap.clip = e.clip := by
  simp only [Ed.swap]
  repeat' split
  all_goals rfl
@[simp] theorem undo_clip : (e.undo L).clip = e.clip := by
  unfold Ed.undo
  split
  · rfl
  · dsimp only
    rw [predict_clip]
    split <;> rfl

theorem getKey_clip (e : Ed) : (getKey e).2.clip = e.clip := by
  unfold Ed.getKey
  split <;> rfl

theorem searchLoop_clip (n : Nat) (it : ISt) (e : Ed) : (searchLoop L n it e).clip = e.clip := by
  induction n generalizing it e with
  | zero => rfl
  | succ n ih =>
    unfold Ed.searchLoop
    have hf := getKey_clip e
    cases hk : getKey e with
    | mk k e' =>
      rw [hk] at hf
      dsimp only at hf
      cases k with
      | none => exact hf
      | some key =>
        dsimp only
        split
        · rw [ih]; exact hf
        split
        · rw [replace_clip]; exact hf
        split
        · exact hf
        split
        · rw [ih]; exact hf
        split
        · rw [ih]; exact hf
        split
        · rw [ih]; exact hf
        · rw [ih]; exact hf

theorem type_clip (k : Bytes) : (e.type L k).clip = e.clip := by
  unfold Ed.type
  dsimp only
  split
  · exact backspace_clip
  · split
    · rw [typeTail_clip, backspace_clip]
    · split <;> rw [typeTail_clip]

theorem call_clip {c : Cmd} (h : cuts c = false) : (Ed.call L c e).1.clip = e.clip := by
  cases c with
  | killLine | unixWordRubout | unixLineDiscard => cases h
  | acceptLine | custom | endOfLine | forwardWord | interrupt | killWholeLine => rfl
  | beginningOfLine | clearScreen | repaintOnNewline | backwardWord => simp [Ed.call]
  | backwardChar => simp only [Ed.call]; split <;> simp
  | forwardChar =>
    simp only [Ed.call]
    repeat' split
    all_goals first | rfl | simp
  | backwardDeleteChar => exact backspace_clip
  | deleteChar => simp [Ed.call, delete_clip]
  | deleteOrAbort =>
    simp only [Ed.call]
    split
    · simp [delete_clip]
    · rfl
  | yank => simp only [Ed.call]; split <;> simp
  | yankWithQuote => simp only [Ed.call]; split <;> simp
  | swapChar => simp [Ed.call]
  | undo => simp [Ed.call]
  | previousHistory =>
    simp only [Ed.call, prevHist]
    repeat' split
    all_goals simp
  | nextHistory =>
    simp only [Ed.call, nextHist]
    repeat' split
    all_goals simp
  | isearchBackward => exact searchLoop_clip _ _ _
  | completion P =>
    show (Ed.complete L P e).clip = _
    rcases Ed.complete_cases L P e with hc | hc | ⟨pos, t, -, -, hc⟩ <;> rw [hc]
    all_goals simp
  | selfInsert k => exact type_clip k
  | quotedInsert =>
    simp only [Ed.call]
    have hf := getKey_clip e
    cases hk : getKey e with
    | mk k e' =>
      rw [hk] at hf
      cases k with
      | none => exact hf
      | some k => exact (type_clip k).trans hf

end Ed

section
variable {E : Env} {w : World} {s s' : St} {k : Bytes} {rest : List Ev} {ts : List Bytes}

theorem cuts_eq {c : Cmd} (h : cuts c = true) : c = .killLine ∨ c = .unixLineDiscard ∨ c = .unixWordRubout := by
  cases c with
  | killLine => exact Or.inl rfl
  | unixLineDiscard => exact Or.inr (Or.inl rfl)
  | unixWordRubout => exact Or.inr (Or.inr rfl)
  | _ => cases h

/-- A command that cuts needs the cursor on the line. -/
theorem cut_inside {c : Cmd} (hc : cuts c = true) {p : St × Result} (h : Cmd.call E c s = .ok p) :
    0 ≤ s.cursor ∧ s.cursor ≤ s.len := by
  rcases cuts_eq hc with rfl | rfl | rfl
  · have h : cmdKillLine E s = .ok p := h
    unfold cmdKillLine subString at h
    obtain ⟨t, h1, -⟩ := bind_ok.mp h
    obtain ⟨cs, h2, -⟩ := bind_ok.mp h1
    obtain ⟨a, b, -⟩ := slice_ok h2
    exact ⟨a, b⟩
  · have h : cmdUnixLineDiscard E s = .ok p := h
    unfold cmdUnixLineDiscard subString at h
    obtain ⟨t, h1, -⟩ := bind_ok.mp h
    obtain ⟨cs, h2, -⟩ := bind_ok.mp h1
    obtain ⟨a, b, c, -⟩ := slice_ok h2
    exact ⟨b, c⟩
  · have h : cmdUnixWordRubout E s = .ok p := h
    unfold cmdUnixWordRubout at h
    obtain ⟨t, h1, -⟩ := bind_ok.mp h
    exact checkCursor_ok h1

theorem Spec.Kills.out {c : Cmd} {l r a m z : List Bytes} (h : Kills c l r a m z) : CutsOut c l r a m z := by
  cases h
  · exact ⟨rfl, rfl, rfl⟩
  · exact ⟨rfl, rfl, rfl⟩
  · exact ⟨rfl, rfl⟩

/-- What a key that cuts does. -/
theorem step_cut (hi : s.input = .key k :: rest) (hc : cuts (lookupCommand E k) = true)
    {o : Option RLRes} (h : step E s = .ok (s', o)) :
    ∃ l r a m z, At s l r ∧ CutsOut (lookupCommand E k) l r a m z ∧ At s' a z ∧
      s'.clip = E.clipSet s.clip m.flatten ∧ o = none := by
  rw [step_key hi] at h
  generalize hcm : lookupCommand E k = c at h hc
  unfold execCmd at h
  obtain ⟨⟨s1, rc⟩, h1, h⟩ := bind_ok.mp h
  obtain ⟨i0, i1⟩ := cut_inside hc h1
  have i0 : 0 ≤ s.cursor := i0
  have i1 : s.cursor ≤ s.len := i1
  have hat : At s (s.units.take s.cursor.toNat) (s.units.drop s.cursor.toNat) :=
    At.exists i0 (by rw [St.units_eq, List.length_map]; simpa [St.line, St.len] using i1)
  have hat0 : At (({ s.emit .await with input := rest } : St).emit .cursorOff)
      (s.units.take s.cursor.toNat) (s.units.drop s.cursor.toNat) := ⟨hat.units, hat.cursor⟩
  obtain ⟨a, m, z, hk, -, hA, hcl, hrc⟩ := kill_split (cuts_eq hc) hat0 (.call h1)
  have hrc : rc = .cont := hrc
  subst hrc
  simp only [pure_ok, Prod.mk.injEq] at h
  obtain ⟨rfl, rfl⟩ := h
  refine ⟨_, _, _, _, _, hat, hk.out, ⟨(at_of_ed hA).units, (at_of_ed hA).cursor⟩, ?_, rfl⟩
  show s1.clip = _
  rw [hcl]
  rfl

/-- Every other key leaves the clipboard alone. -/
theorem key_clip (hb : BuiltinKeys E) (hi : s.input = .key k :: rest) (hc : cuts (lookupCommand E k) = false)
    {o : Option RLRes} (h : step E s = .ok (s', o)) : s'.clip = s.clip := by
  obtain ⟨h1, h2⟩ := step_key_ed hi rfl (BuiltinKeys.builtin hb k) h
  have hk : (Ed.call E.logic (lookupCommand E k) { s.ed with input := rest }).1.clip = s.clip := Ed.call_clip hc
  by_cases hx : (Ed.call E.logic (lookupCommand E k) { s.ed with input := rest }).2 = .cont
  · rcases (h1 hx).2 with hh | ⟨-, hh⟩
    · exact (congrArg Ed.clip hh).trans hk
    · have := congrArg Ed.clip hh
      rw [Ed.predict_clip] at this
      exact this.trans hk
  · exact (congrArg Ed.clip (h2 hx).2).trans hk

/-- The last step does not change the clipboard. -/
theorem last_keeps (hb : BuiltinKeys E) {r : RLRes} (h : step E s = .ok (s', some r)) : s'.clip = s.clip := by
  cases hi : s.input with
  | nil => rw [step, hi] at h; cases h; rfl
  | cons ev rest =>
    cases ev with
    | err e => rw [step, hi] at h; cases h; rfl
    | resize n => have := (step_resize_ed hi h).1; cases this
    | key k =>
      cases hc : cuts (lookupCommand E k) with
      | false => exact key_clip hb hi hc h
      | true =>
        obtain ⟨-, -, -, -, -, -, -, -, -, ho⟩ := step_cut hi hc h
        cases ho

/-- Every session has its cuts. -/
theorem cuts_exist (h : Reachable E w s) : ∃ ts, Cuts E w s ts := by
  induction h with
  | start h => exact ⟨[], .start h⟩
  | step _ h ih =>
    obtain ⟨ts, ih⟩ := ih
    rcases step_cases h with ⟨n, rest, hi⟩ | ⟨k, rest, hi⟩
    · exact ⟨ts, .resize ih hi h⟩
    · cases hc : cuts (lookupCommand E k) with
      | false => exact ⟨ts, .key ih hi hc h⟩
      | true =>
        obtain ⟨l, r, a, m, z, g1, g2, g3, -⟩ := step_cut hi hc h
        exact ⟨_, .cut ih hi h g1 g2 g3⟩

theorem cutsOut_unique {c : Cmd} {l r l' r' a a' m m' z z' : List Bytes} (h : CutsOut c l r a m z)
    (h' : CutsOut c l' r' a' m' z') (hl : l = l') (hr : r = r') (ha : a = a') : m = m' := by
  subst hl hr ha
  unfold CutsOut at h h'
  split at h
  · rw [h.2.1, h'.2.1]
  · rw [h.2.1, h'.2.1]
  · exact List.append_cancel_left (h.1 ▸ h'.1)
  · exact h.elim

theorem cutsOut_cuts {c : Cmd} {l r a m z : List Bytes} (h : CutsOut c l r a m z) : cuts c = true := by
  cases c <;> first | rfl | exact h.elim

/-- What writing the texts that were cut makes of the clipboard. -/
theorem cuts_clip (hb : BuiltinKeys E) (ht : Cuts E w s ts) : s.clip = ts.foldr (fun t c => E.clipSet c t) w.clip := by
  induction ht with
  | start h => exact (Obs.of_ed (startSt_ed h).1).clip.trans (by simp [Ed.start])
  | resize _ hi h ih => rw [(resize_obs hi h).clip]; exact ih
  | key _ hi hc h ih => rw [key_clip hb hi hc h]; exact ih
  | cut _ hi h g1 g2 g3 ih =>
    obtain ⟨l, r, a, m, z, k1, k2, k3, k4, -⟩ := step_cut hi (cutsOut_cuts g2) h
    obtain ⟨e1, e2⟩ := g1.unique k1
    rw [k4, ih, cutsOut_unique k2 g2 e1.symm e2.symm (k3.unique g3).1]
    rfl

/-- Every session has its cuts, and the clipboard is what writing them, and nothing else, made of it. -/
theorem C65_partial (hb : BuiltinKeys E) (h : Reachable E w s) :
    ∃ ts, Cuts E w s ts ∧ s.clip = ts.foldr (fun t c => E.clipSet c t) w.clip := by
  obtain ⟨ts, ht⟩ := cuts_exist h
  exact ⟨ts, ht, cuts_clip hb ht⟩

theorem cuts_last (hb : BuiltinKeys E) (hclip : ∀ o t, E.clipSet o t = some t) (h : Cuts E w s ts) :
    s.clip = ts.head?.or w.clip := by
  rw [cuts_clip hb h]
  cases ts with
  | nil => rfl
  | cons t ts => exact hclip _ _

/-- If writing to the clipboard succeeds it holds the text that was cut last. -/
theorem C65_last_partial (hb : BuiltinKeys E) (hclip : ∀ o t, E.clipSet o t = some t) (h : Reachable E w s) :
    ∃ ts, Cuts E w s ts ∧ s.clip = ts.head?.or w.clip := by
  obtain ⟨ts, h1, -⟩ := C65_partial hb h
  exact ⟨ts, h1, cuts_last hb hclip h1⟩

/-- The text that Yank inserts, wherever it is given: the text that was cut last. -/
theorem C65_yank (hb : BuiltinKeys E) (hclip : ∀ o t, E.clipSet o t = some t) (h : Reachable E w s)
    {l r : List Bytes} (hat : At s l r) (hi : s.input = .key k :: rest) (hk : lookupCommand E k = .yank)
    (hs : step E s = .ok (s', none)) :
    ∃ ts, Cuts E w s ts ∧ ∀ t, ts.head?.or w.clip = some t →
      ∃ u, Trimmed t u ∧ At s' (l ++ (segs E.cfg u).map Moji.write) r := by
  obtain ⟨ts, h1, h2⟩ := C65_last_partial hb hclip h
  refine ⟨ts, h1, fun t ht => ?_⟩
  obtain ⟨ml, mr, ha, rfl, rfl⟩ := hat.ed
  have hed : s.ed.clip = some t := h2.trans ht
  have ho := (step_obs hb hi hs).1
  rw [hk] at ho
  have hy : Ed.At (Ed.call E.logic .yank { s.ed with input := rest }).1 (ml ++ segs E.cfg (trimRightCRLFNUL t)) mr := by
    simp only [Ed.call]
    rw [show ({ s.ed with input := rest } : Ed).clip = some t from hed]
    dsimp only
    rw [ha.cursor]
    apply Ed.At.replace (m := [])
    rw [List.append_nil]
    exact ⟨ha.line, rfl⟩
  exact ⟨_, trim_ok t, by simpa using ho.at hy⟩

/-- When `ReadLine` returns the clipboard holds the text that was cut last. -/
theorem C65_end_partial (hb : BuiltinKeys E) (hclip : ∀ o t, E.clipSet o t = some t) {p : St × RLRes}
    (h : readLine E w = .ok p) :
    ∃ t ts, Cuts E w t ts ∧ step E t = .ok (p.1, some p.2) ∧ p.1.clip = ts.head?.or w.clip := by
  obtain ⟨t, h1, h2⟩ := readLine_reachable h
  obtain ⟨ts, h3, h4⟩ := C65_last_partial hb hclip h1
  exact ⟨t, ts, h3, h2, (last_keeps hb h2).trans h4⟩

/-- Whatever program calls `ReadLine` again and again: the clipboard holds the text that was cut last in any of the calls. -/
theorem C65_program {E : Env} (hb : BuiltinKeys E) (hclip : ∀ o t, E.clipSet o t = some t) {w0 w : World}
    {ts : List Bytes} (h : CutInCalls E w0 w ts) : w.clip = ts.head?.or w0.clip := by
  induction h with
  | start => rfl
  | @call w s s' r ts us lines h1 h2 h3 ih =>
    have hb' : BuiltinKeys { E with history := lines } := hb
    rw [show s'.world.clip = s'.clip from rfl, last_keeps hb' h3, cuts_last hb' hclip h2, ih]
    cases us <;> simp

end

section
open Example

/-- The clipboard after some steps. -/
def Example.clipboard (w : World) (n : Nat) : Option (Option Bytes) :=
  match after (env plain) w n with
  | .ok s => some s.clip
  | .error _ => none

/-- Two cuts; between and after them other commands: Backspace, Delete, Escape, Undo, moving. -/
example :
    let w : World := { input := keys ["a", "b", " ", "c", "d", "\x17", "\x08", "\x02", "\x0b", "\x08", "x", "\x1b", "\x1f", "\x01", "\x04", "\x19"], clip := some (b "old") }
    [clipboard w 5, clipboard w 6, clipboard w 8, clipboard w 9, clipboard w 15] =
    [some (some (b "old")), some (some (b "cd")), some (some (b "cd")), some (some (b "b")), some (some (b "b"))] ∧
    look (after (env plain) w 16) = .inr ([b "b"], 1, 0) := by decide +kernel

/-- A text cut in one call of `ReadLine` is inserted in the next. -/
example :
    let x := program (env plain) (fun _ => true) { input := keys ["a", "b", "\x15", "c", "\r", "\x19", "d", "\r", "\x04"] }
    (x.toOption.map fun r => r.1.buffer) = some [b "c", b "abd"] := by decide +kernel

/-- **Refuted** if nothing is cut: KillLine at the end of the line empties the clipboard. -/
theorem C65_refuted_empty :
    let w : World := { input := keys ["a", "b", "\x15", "c", "\x0b", "\x19"] }
    [clipboard w 3, clipboard w 4, clipboard w 5] = [some (some (b "ab")), some (some (b "ab")), some (some [])] ∧
    look (after (env plain) w 6) = .inr ([b "c"], 1, 0) := by decide +kernel

/-- **Refuted** for Escape (`KILL_WHOLE_LINE`), which keeps nothing: Yank brings back what was cut before. -/
theorem C65_refuted_whole :
    let w : World := { input := keys ["a", "\x15", "b", "\x1b", "\x19"] }
    look (after (env plain) w 3) = .inr ([b "b"], 1, 0) ∧ look (after (env plain) w 4) = .inr ([], 0, 0) ∧
    look (after (env plain) w 5) = .inr ([b "a"], 1, 0) := by decide +kernel
end
end Readline
