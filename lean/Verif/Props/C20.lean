import Verif.Props.C38
import Verif.Props.C04
import Verif.Spec.Browse
import Verif.Proof.Steady
/-!
# C20: the prediction never leaks and is accepted faithfully

* `C20_leak`: a session in which no prediction is accepted returns what the same session returns
  with predictions switched off, whatever is predicted.  A prediction is accepted (`Spec.Accepts`)
  when a key bound to `FORWARD_CHAR` comes while the cursor is at the end of the line and a
  prediction is stored.
* `C20_accept`: accepting appends the stored prediction to the line.
* `C20_fresh_partial`: in sessions without the five commands that change the line and do not ask
  the predictor, the line becomes line+prediction for that line.  `C20_refuted`: with them,
  the prediction for an earlier line is appended.
* `C20_asked`: in every session, the stored prediction is the predictor's answer for the line of an
  earlier state, since which the line changed only by keys for these five commands (`Spec.Unasked`);
  `C20_stale`: these keys never touch the stored prediction.
* `C20_history`: what `predictByHistory` predicts: the rest of the newest entry that continues the
  line.
* `C20_off`: without `PredictColor` there is never a prediction, and `FORWARD_CHAR` at the end of the
  line does nothing.
-/
namespace Readline
open Spec

/-- The next key accepts a prediction. -/
def Spec.Accepts (E : Env) (s : St) : Prop :=
  ∃ k rest, s.input = .key k :: rest ∧ lookupCommand E k = .forwardChar ∧
    s.units.length ≤ s.cursor ∧ s.suffixList ≠ []

/-! ## Without the prediction -/

/-- The same settings without predictions. -/
def Logic.off (L : Logic) (p : Bytes → Bytes) : Logic := { L with predictOn := false, predict := p }

namespace Ed

/-- The same state without a prediction. -/
def bare (e : Ed) : Ed := { e with suffix := none }

variable {L : Logic} {p : Bytes → Bytes}

theorem predict_off (e : Ed) : predict (L.off p) e = e := fresh_off rfl e

theorem predict_bare (e : Ed) : (predict L e).bare = e.bare := by
  unfold predict
  split
  · rfl
  · split <;> rfl

theorem insert_bare (e : Ed) (pos : Int) (t : Bytes) :
    (e.insert L pos t).bare = e.bare.insert (L.off p) pos t := rfl

theorem delete_bare (e : Ed) (pos n : Int) : (e.delete pos n).bare = e.bare.delete pos n := by
  unfold delete
  show (if n ≤ 0 ∨ e.len < pos + n then e else _ : Ed).bare = if n ≤ 0 ∨ e.len < pos + n then e.bare else _
  split <;> rfl

theorem replace_bare (e : Ed) (pos : Int) (t : Bytes) :
    (replace L e pos t).bare = replace (L.off p) e.bare pos t := by
  unfold replace
  dsimp only
  rw [predict_bare, predict_off]
  rw [show e.bare.cursor = e.cursor from rfl, ← delete_bare]
  rfl

theorem backspace_bare (e : Ed) : (backspace L e).bare = backspace (L.off p) e.bare := by
  unfold backspace
  rw [show e.bare.cursor = e.cursor from rfl]
  split
  · rw [predict_bare, predict_off, delete_bare]; rfl
  · rfl

theorem typeTail_bare (e : Ed) (t : Bytes) : (typeTail L e t).bare = typeTail (L.off p) e.bare t := by
  unfold typeTail
  dsimp only
  rw [predict_bare, predict_off]
  rfl

theorem type_bare (e : Ed) (k : Bytes) : (type L e k).bare = type (L.off p) e.bare k := by
  unfold type
  dsimp only
  rw [show (L.off p).cfg = L.cfg from rfl, show e.bare.cursor = e.cursor from rfl,
    show e.bare.line = e.line from rfl, show e.bare.pending = e.pending from rfl]
  split
  · rw [backspace_bare]; rfl
  · split
    · rw [typeTail_bare, backspace_bare]
    · split
      · rw [typeTail_bare]; rfl
      · rw [typeTail_bare]

theorem undo_bare (e : Ed) : (undo L e).bare = undo (L.off p) e.bare := by
  unfold undo
  rw [show e.bare.undoes = e.undoes from rfl]
  split
  · rfl
  · dsimp only
    rw [predict_bare, predict_off]
    rw [show e.bare.line = e.line from rfl, show (L.off p).cfg = L.cfg from rfl]
    split <;> rfl

theorem swap_bare (e : Ed) : (swap e).bare = swap e.bare := by
  unfold swap
  rw [show e.bare.len = e.len from rfl, show e.bare.cursor = e.cursor from rfl]
  split
  · split <;> rfl
  · split <;> rfl

theorem saveHist_bare (e : Ed) : (saveHist L e).bare = saveHist (L.off p) e.bare := by
  unfold saveHist
  show (if e.histPtr < histLen L ∧ histAt L e.histPtr = e.text then e else _ : Ed).bare =
    if e.histPtr < histLen L ∧ histAt L e.histPtr = e.text then e.bare else _
  split <;> rfl

theorem showHist_bare (e : Ed) : (showHist L e).bare = showHist (L.off p) e.bare := by
  unfold showHist
  dsimp only
  have : getHist (L.off p) e.bare.killWhole = getHist L e.killWhole := rfl
  rw [this]
  split <;> rfl

theorem prevHist_bare (e : Ed) : (prevHist L e).bare = prevHist (L.off p) e.bare := by
  unfold prevHist
  dsimp only
  rw [show histLen (L.off p) = histLen L from rfl, show e.bare.histPtr = e.histPtr from rfl,
    show (L.off p).historyCycling = L.historyCycling from rfl]
  split
  · rfl
  · split
    · rfl
    · split
      · rw [showHist_bare (p := p)]
        congr 1
        have := saveHist_bare (L := L) (p := p) { e with histPtr := histLen L + 1 }
        have h2 : saveHist (L.off p) { e.bare with histPtr := histLen L + 1 } =
          (saveHist L { e with histPtr := histLen L + 1 }).bare := this.symm
        rw [h2]; rfl
      · rw [showHist_bare (p := p), ← saveHist_bare]; rfl

theorem nextHist_bare (e : Ed) : (nextHist L e).bare = nextHist (L.off p) e.bare := by
  unfold nextHist
  dsimp only
  rw [show histLen (L.off p) = histLen L from rfl, show e.bare.histPtr = e.histPtr from rfl]
  split
  · rfl
  · split
    · rfl
    · rw [showHist_bare (p := p), ← saveHist_bare]; rfl

theorem getKey_bare (e : Ed) : getKey e.bare = ((getKey e).1, (getKey e).2.bare) := by
  unfold getKey
  rw [show e.bare.input = e.input from rfl]
  split <;> rfl

theorem searchUpdate_off (it : ISt) (n : Nat) : searchUpdate (L.off p) it n = searchUpdate L it n := by
  induction n with
  | zero => rfl
  | succ n ih =>
    unfold searchUpdate
    rw [show (L.off p).history = L.history from rfl]
    split
    · rfl
    · rw [ih]; rfl

theorem searchPrev_off (it : ISt) (n : Nat) (i : Int) : searchPrev (L.off p) it n i = searchPrev L it n i := by
  induction n generalizing i with
  | zero => rfl
  | succ n ih => unfold searchPrev; simp only [ih]; rfl

theorem searchNext_off (it : ISt) (n : Nat) (i : Int) : searchNext (L.off p) it n i = searchNext L it n i := by
  induction n generalizing i with
  | zero => rfl
  | succ n ih => unfold searchNext; simp only [ih]; rfl

theorem searchLoop_bare (n : Nat) (it : ISt) (e : Ed) :
    (searchLoop L n it e).bare = searchLoop (L.off p) n it e.bare := by
  induction n generalizing it e with
  | zero => rfl
  | succ n ih =>
    rw [searchLoop, searchLoop, getKey_bare]
    rw [show (L.off p).history = L.history from rfl]
    cases hg : getKey e with
    | mk k e' =>
      cases k with
      | none => rfl
      | some k =>
        dsimp only
        split
        · rw [searchUpdate_off, ih]
        · split
          · rw [replace_bare (p := p)]; rfl
          · split
            · rfl
            · split
              · rw [searchPrev_off, ih]
              · split
                · rw [searchNext_off, ih]
                · split
                  · rw [ih]
                  · rw [searchUpdate_off, ih]

/-- Every command but an accepting one does the same with and without predictions. -/
theorem call_bare (c : Cmd) (e : Ed) (h : c = .forwardChar → e.len ≤ e.cursor → e.suffixList = []) :
    ((call L c e).1.bare, (call L c e).2) = call (L.off p) c e.bare := by
  cases c with
  | acceptLine => rfl
  | interrupt => rfl
  | beginningOfLine => simp only [call]; rw [predict_bare, predict_off]; rfl
  | backwardChar =>
    simp only [call]
    rw [show e.bare.cursor = e.cursor from rfl]
    split
    · rfl
    · rw [predict_bare, predict_off]; rfl
  | endOfLine => rfl
  | forwardChar =>
    simp only [call]
    rw [show e.bare.cursor = e.cursor from rfl, show e.bare.len = e.len from rfl,
      show e.bare.suffixList = [] from rfl]
    split
    · rename_i hc
      rw [h rfl hc]; rfl
    · rfl
  | backwardDeleteChar => simp only [call]; rw [backspace_bare (p := p)]
  | deleteChar => simp only [call]; rw [predict_bare, predict_off, delete_bare]; rfl
  | deleteOrAbort =>
    simp only [call]
    rw [show e.bare.len = e.len from rfl]
    split
    · rw [predict_bare, predict_off, delete_bare]; rfl
    · rfl
  | killLine => rfl
  | killWholeLine => rfl
  | unixWordRubout =>
    simp only [call, wordRubout]
    rw [predict_bare, predict_off]
    congr 1
    have : ∀ (x : Ed) (c : Int), ({ x with cursor := c } : Ed).bare = { x.bare with cursor := c } := fun _ _ => rfl
    rw [this, delete_bare]
    rfl
  | unixLineDiscard =>
    simp only [call]
    rw [predict_bare, predict_off]
    congr 1
    have : ∀ (x : Ed) (c : Int), ({ x with cursor := c } : Ed).bare = { x.bare with cursor := c } := fun _ _ => rfl
    rw [this, delete_bare]
    rfl
  | clearScreen => simp only [call]; rw [predict_bare, predict_off]
  | repaintOnNewline => simp only [call]; rw [predict_bare, predict_off]
  | quotedInsert =>
    simp only [call]
    rw [getKey_bare]
    cases hg : getKey e with
    | mk k e' =>
      cases k with
      | none => rfl
      | some k => dsimp only; rw [type_bare (p := p)]
  | yank =>
    simp only [call]
    rw [show e.bare.clip = e.clip from rfl]
    split
    · rfl
    · rw [replace_bare (p := p)]; rfl
  | yankWithQuote =>
    simp only [call]
    rw [show e.bare.clip = e.clip from rfl]
    split
    · rfl
    · rw [replace_bare (p := p)]; rfl
  | swapChar => simp only [call]; rw [swap_bare]
  | backwardWord => simp only [call]; rw [predict_bare, predict_off]; rfl
  | forwardWord => rfl
  | undo => simp only [call]; rw [undo_bare (p := p)]
  | previousHistory => simp only [call]; rw [prevHist_bare (p := p)]
  | nextHistory => simp only [call]; rw [nextHist_bare (p := p)]
  | isearchBackward => simp only [call]; rw [searchLoop_bare (p := p)]; rfl
  | selfInsert k => simp only [call]; rw [type_bare (p := p)]
  | completion P =>
    simp only [call, complete]
    rw [show e.bare.cursor = e.cursor from rfl, show e.bare.line = e.line from rfl]
    generalize completionOf P.uni P.completer P.postfix_ ((e.line.take e.cursor.toNat).map Moji.write) = o
    cases o with
    | crash => rfl
    | nothing => rfl
    | bell l =>
      dsimp only
      split
      · rw [predict_bare, predict_off]
      · rfl
    | insert pos t => dsimp only; rw [replace_bare (p := p)]
  | custom f => rfl

end Ed

section
variable {E E₀ : Env} {w w₀ : World} {s s' s₀ s₀' : St} {p : Bytes → Bytes}

theorem accepts_ed {k : Bytes} {rest : List Ev} (hi : s.input = .key k :: rest) (hn : ¬ Accepts E s)
    (hc : lookupCommand E k = .forwardChar) (hl : Ed.len { s.ed with input := rest } ≤ s.cursor) :
    Ed.suffixList { s.ed with input := rest } = [] := by
  apply Classical.byContradiction
  intro hx
  apply hn
  refine ⟨k, rest, hi, hc, ?_, hx⟩
  rw [St.units_eq, List.length_map]
  exact hl

/-- One event, with and without predictions. -/
theorem step_bare (hb : BuiltinKeys E) (hL : E₀.logic = E.logic.off p) (he : s.ed.bare = s₀.ed)
    (hn : ¬ Accepts E s) {q q₀ : St × Option RLRes} (h : step E s = .ok q) (h₀ : step E₀ s₀ = .ok q₀) :
    q.2 = q₀.2 ∧ q.1.ed.bare = q₀.1.ed := by
  have hin : s.input = s₀.input := congrArg Ed.input he
  cases hi : s.input with
  | nil =>
    obtain ⟨a1, b1⟩ := step_done (.inl hi) h
    obtain ⟨a2, b2⟩ := step_done (.inl (hin ▸ hi)) h₀
    rw [← hin] at a2 b2
    rw [a1, a2, b1, b2, ← he]
    exact ⟨rfl, rfl⟩
  | cons x rest =>
    have hi₀ : s₀.input = x :: rest := hin ▸ hi
    have he' : Ed.bare { s.ed with input := rest } = { s₀.ed with input := rest } := by rw [← he]; rfl
    cases x with
    | err e =>
      obtain ⟨a1, b1⟩ := step_done (.inr ⟨_, _, hi⟩) h
      obtain ⟨a2, b2⟩ := step_done (.inr ⟨_, _, hi₀⟩) h₀
      rw [← hin] at a2 b2
      rw [a1, a2, b1, b2, ← he]
      exact ⟨rfl, rfl⟩
    | resize n =>
      obtain ⟨o, ed⟩ := step_resize_ed hi h
      obtain ⟨o', ed'⟩ := step_resize_ed hi₀ h₀
      rw [o, o', ed, ed', hL, Ed.predict_bare, Ed.predict_off]
      exact ⟨rfl, he'⟩
    | key k =>
      have hcmd : lookupCommand E₀ k = lookupCommand E k := by
        unfold lookupCommand
        rw [show E₀.keyMap = E.keyMap from congrArg Logic.keyMap hL,
          show E₀.globalKeyMap = E.globalKeyMap from congrArg Logic.globalKeyMap hL]
      have hbk : (lookupCommand E k).builtin = true := BuiltinKeys.builtin hb k
      obtain ⟨a1, b1⟩ := step_key_ed hi rfl hbk h
      obtain ⟨a2, b2⟩ := step_key_ed hi₀ hcmd hbk h₀
      have hcall := Ed.call_bare (L := E.logic) (p := p) (lookupCommand E k) { s.ed with input := rest }
        (fun hc hl => accepts_ed hi hn hc hl)
      rw [he'] at hcall
      rw [hL, ← hcall] at a2 b2
      dsimp only at a2 b2
      by_cases hc : (Ed.call E.logic (lookupCommand E k) { s.ed with input := rest }).2 = .cont
      · obtain ⟨o1, x1⟩ := a1 hc
        obtain ⟨o2, x2⟩ := a2 hc
        refine ⟨by rw [o1, o2], ?_⟩
        have y1 : q.1.ed.bare = (Ed.call E.logic (lookupCommand E k) { s.ed with input := rest }).1.bare := by
          rcases x1 with x1 | ⟨_, x1⟩
          · rw [x1]
          · rw [x1, Ed.predict_bare]
        rw [y1]
        rcases x2 with x2 | ⟨_, x2⟩
        · rw [x2]
        · rw [x2, Ed.predict_off]
      · obtain ⟨o1, x1⟩ := b1 hc
        obtain ⟨o2, x2⟩ := b2 hc
        exact ⟨by rw [o1, o2]; rfl, by rw [x1, x2]; rfl⟩

theorem loop_bare (hb : BuiltinKeys E) (hL : E₀.logic = E.logic.off p) {n m : Nat}
    (hr : Reachable E w s) (hn : ∀ s, Reachable E w s → ¬ Accepts E s) (he : s.ed.bare = s₀.ed)
    {q q₀ : St × RLRes} (h : loop E n s = .ok q) (h₀ : loop E₀ m s₀ = .ok q₀) :
    q.2 = q₀.2 ∧ q.1.ed.bare = q₀.1.ed := by
  induction n generalizing m s s₀ with
  | zero => cases h
  | succ n ih =>
    obtain ⟨x, g, h'⟩ := loop_steps h
    obtain ⟨x₀, g₀, h₀'⟩ := loop_steps h₀
    obtain ⟨a1, a2⟩ := step_bare hb hL he (hn s hr) g g₀
    rcases h' with ⟨r, hx, rfl⟩ | ⟨n', hn', hx, hl⟩
    · rcases h₀' with ⟨r', hx', rfl⟩ | ⟨_, _, hx', _⟩
      · rw [hx, hx'] at a1; cases a1
        exact ⟨rfl, a2⟩
      · rw [hx, hx'] at a1; cases a1
    · rcases h₀' with ⟨r', hx', rfl⟩ | ⟨m', hm, hx', hl₀⟩
      · rw [hx, hx'] at a1; cases a1
      · cases hn'
        have e1 : step E s = .ok (x.1, none) := by rw [g, ← hx]
        exact ih (.step hr e1) a2 hl hl₀

/-- **C20**, first part: a session in which no prediction is accepted ends like the session without
predictions.  The other settings that may influence the text are the same. -/
theorem C20_leak (hb : BuiltinKeys E) (hL : E₀.logic = E.logic.off p) (hcur : w.cursor = w₀.cursor)
    (hclip : w.clip = w₀.clip) (hin : w.input = w₀.input) (hn : ∀ s, Reachable E w s → ¬ Accepts E s)
    {r r₀ : RLRes} (h : readLine E w = .ok (s, r)) (h₀ : readLine E₀ w₀ = .ok (s₀, r₀)) :
    r = r₀ ∧ s.units = s₀.units ∧ s.cursor = s₀.cursor ∧ s.undoes = s₀.undoes ∧ s.clip = s₀.clip := by
  unfold readLine at h h₀
  obtain ⟨t, g, h⟩ := bind_ok.mp h
  obtain ⟨t₀, g₀, h₀⟩ := bind_ok.mp h₀
  have he : t.ed.bare = t₀.ed := by
    rw [(startSt_ed g).1, (startSt_ed g₀).1, hL]
    unfold Ed.start
    dsimp only
    rw [Ed.predict_bare, Ed.predict_off, ← hcur, ← hclip, ← hin]
    rfl
  obtain ⟨a1, a2⟩ := loop_bare hb hL (.start g) hn he h h₀
  refine ⟨a1, ?_, congrArg Ed.cursor a2, congrArg Ed.undoes a2, congrArg Ed.clip a2⟩
  have : s.line = s₀.line := congrArg Ed.line a2
  rw [St.units_eq, St.units_eq, this]

/-- No key of the session is bound to `FORWARD_CHAR`. -/
theorem noForward_accepts (hb : BuiltinKeys E)
    (hk : ∀ k, Ev.key k ∈ w.input → lookupCommand E k ≠ .forwardChar) (h : Reachable E w s) : ¬ Accepts E s := by
  rintro ⟨k, rest, hi, hc, _⟩
  exact hk k ((reachable_input hb h).subset (by rw [hi]; exact List.mem_cons_self)) hc

/-! ## Accepting -/

theorem Ed.replace_end {L : Logic} {e : Ed} {t : Bytes} (hc : e.cursor = e.len) :
    (Ed.replace L e e.cursor t).line = e.line ++ segs L.cfg t ∧
    (Ed.replace L e e.cursor t).cursor = e.cursor + (segs L.cfg t).length := by
  have hd : e.delete e.cursor (e.cursor - e.cursor) = e := by
    unfold Ed.delete
    rw [if_pos (Or.inl (by omega))]
  have hl : e.cursor.toNat = e.line.length := by
    rw [hc]; unfold Ed.len; omega
  unfold Ed.replace
  dsimp only
  rw [Ed.predict_line, Ed.predict_cursor, hd]
  refine ⟨?_, rfl⟩
  show e.line.take e.cursor.toNat ++ segs L.cfg t ++ e.line.drop e.cursor.toNat = _
  rw [hl]
  simp

/-- **C20**, second part: accepting appends the stored prediction and puts the cursor behind it. -/
theorem C20_accept {k : Bytes} {rest : List Ev} {o : Option RLRes} (hi : s.input = .key k :: rest)
    (hc : lookupCommand E k = .forwardChar) (hcur : s.cursor = s.units.length) (hs : s.suffixList ≠ [])
    (h : step E s = .ok (s', o)) :
    o = none ∧ s'.units = s.units ++ unitsOf E.cfg (s.suffixList.flatMap Moji.write) ∧
      s'.cursor = s'.units.length := by
  obtain ⟨a1, _⟩ := step_key_ed hi hc rfl h
  obtain ⟨o1, x1⟩ := a1 rfl
  have hlen : s.units.length = s.ed.line.length := by rw [St.units_eq, List.length_map]; rfl
  have hx : s'.ed = Ed.replace E.logic { s.ed with input := rest } s.cursor (lineText s.suffixList) := by
    rcases x1 with x1 | ⟨hx, _⟩
    · rw [x1]
      simp only [Ed.call]
      rw [if_pos, if_pos]
      · rfl
      · show s.suffixList.length > 0
        exact List.length_pos_iff.mpr hs
      · show s.cursor ≥ (s.ed.line.length : Int)
        omega
    · cases hx
  have hend : Ed.cursor { s.ed with input := rest } = Ed.len { s.ed with input := rest } := by
    show s.cursor = (s.ed.line.length : Int)
    omega
  obtain ⟨r1, r2⟩ := Ed.replace_end (L := E.logic) (t := lineText s.suffixList) hend
  have hx' : s'.ed = Ed.replace E.logic { s.ed with input := rest } (Ed.cursor { s.ed with input := rest })
    (lineText s.suffixList) := hx
  rw [← hx'] at r1 r2
  have hl' : s'.line = s.line ++ segs E.cfg (lineText s.suffixList) := r1
  have hu : s'.units = s.units ++ unitsOf E.cfg (s.suffixList.flatMap Moji.write) := by
    rw [St.units_eq, St.units_eq, hl', List.map_append]
    congr 1
    unfold segs unitsOf lineText
    rw [List.map_map]
    exact List.map_congr_left fun m _ => Moji.norm_write m
  refine ⟨o1, hu, ?_⟩
  have r2' : s'.cursor = s.cursor + (segs E.cfg (lineText s.suffixList)).length := r2
  rw [r2', hcur, St.units_eq s', hl', List.length_map, List.length_append, hlen]
  show ((s.line.length : Int)) + _ = _
  omega

/-! ## The prediction for the line shown -/

/-- The text the stored prediction is for. -/
theorem fresh_suffix (hp : E.predictColor.1 ≠ []) (hf : Ed.Fresh E.logic s.ed) :
    s.suffix = if s.units = [] then none else some (stringToMoji E.cfg (E.predict s.text)) := by
  have hu : s.units = [] ↔ s.ed.line.length = 0 := by
    rw [St.units_eq, List.map_eq_nil_iff, List.length_eq_zero_iff]; rfl
  unfold Ed.Fresh Ed.predict at hf
  rw [if_neg (by show ¬ decide _ = false; simp [hp])] at hf
  by_cases h0 : s.ed.line.length = 0
  · rw [if_pos h0] at hf
    rw [if_pos (hu.mpr h0)]
    exact (congrArg Ed.suffix hf).symm
  · rw [if_neg h0] at hf
    rw [if_neg (fun h => h0 (hu.mp h)), St.text_eq]
    exact (congrArg Ed.suffix hf).symm

theorem reachable_fresh (hb : BuiltinKeys E)
    (hk : ∀ k, Ev.key k ∈ w.input → stales (lookupCommand E k) = false) (h : Reachable E w s) :
    Ed.Fresh E.logic s.ed := by
  induction h with
  | start h => rw [(startSt_ed h).1]; exact Ed.predict_fresh _
  | step h hst ih =>
    refine step_fresh hb hst (.inr fun k hm => hk k ?_) ih
    exact (reachable_input hb h).subset hm

/-- Accepting a prediction that is the one for the line makes the line line+prediction. -/
theorem fresh_accept (hp : E.predictColor.1 ≠ []) (hf : Ed.Fresh E.logic s.ed) {k : Bytes} {rest : List Ev}
    {s' : St} {o : Option RLRes} {cs : List Char} (hi : s.input = .key k :: rest)
    (hc : lookupCommand E k = .forwardChar) (hcur : s.cursor = s.units.length) (hne : s.units ≠ [])
    (hpr : E.predict s.text = utf8 cs) (hw : Whole E.cfg cs) (hst : step E s = .ok (s', o)) :
    o = none ∧ s'.text = s.text ++ utf8 cs ∧ s'.cursor = s'.units.length ∧ s'.input = rest ∧
      s'.clip = s.clip := by
  have hin : s'.input = rest ∧ s'.clip = s.clip := by
    obtain ⟨o1, x1⟩ := (step_key_ed hi hc rfl hst).1 rfl
    rcases x1 with x1 | ⟨hx, _⟩
    · refine (fun h => ⟨(congrArg Ed.input x1).trans h.1, (congrArg Ed.clip x1).trans h.2⟩ :
        (Ed.call E.logic .forwardChar { s.ed with input := rest }).1.input = rest ∧
        (Ed.call E.logic .forwardChar { s.ed with input := rest }).1.clip = s.clip → _) ?_
      simp only [Ed.call]
      split
      · split
        · exact ⟨(Ed.replace_frame E.logic _ _ _).input, (Ed.replace_frame E.logic _ _ _).clip⟩
        · exact ⟨rfl, rfl⟩
      · exact ⟨rfl, rfl⟩
    · cases hx
  refine (fun h : o = none ∧ s'.text = s.text ++ utf8 cs ∧ s'.cursor = s'.units.length =>
    ⟨h.1, h.2.1, h.2.2, hin⟩) ?_
  have hs := fresh_suffix hp hf
  rw [if_neg hne, hpr] at hs
  have htext : ∀ t : Bytes, (stringToMoji E.cfg t).flatMap Moji.write = lineText (segs E.cfg t) := by
    intro t
    unfold lineText segs
    rw [List.flatMap_map]
    simp
  have hsl : s.suffixList = stringToMoji E.cfg (utf8 cs) := by unfold St.suffixList; rw [hs]; rfl
  by_cases hempty : s.suffixList = []
  · -- nothing is predicted
    have hcs : utf8 cs = [] := by
      have := whole_text (C := E.cfg) hw
      rw [← htext, ← hsl, hempty] at this
      exact this.symm
    obtain ⟨a1, _⟩ := step_key_ed hi hc rfl hst
    obtain ⟨o1, x1⟩ := a1 rfl
    have hx : s'.ed = { s.ed with input := rest } := by
      rcases x1 with x1 | ⟨hx, _⟩
      · rw [x1]
        simp only [Ed.call]
        rw [if_pos, if_neg]
        · show ¬ s.suffixList.length > 0
          rw [hempty]; simp
        · show s.cursor ≥ (s.ed.line.length : Int)
          rw [hcur, St.units_eq, List.length_map]
          exact Int.le_refl _
      · cases hx
    have hl : s'.line = s.line := congrArg Ed.line hx
    have hcu : s'.cursor = s.cursor := congrArg Ed.cursor hx
    refine ⟨o1, ?_, ?_⟩
    · rw [hcs, List.append_nil, St.text_eq, St.text_eq, hl]
    · rw [hcu, hcur, St.units_eq, St.units_eq, hl]
  · obtain ⟨a1, a2, a3⟩ := C20_accept hi hc hcur hempty hst
    refine ⟨a1, ?_, a3⟩
    rw [St.text_units, St.text_units, a2, List.flatten_append, hsl, htext, whole_text hw]
    congr 1
    unfold unitsOf
    rw [← List.flatMap_def, htext, whole_text hw]

/-- **C20**, second part for sessions without the commands that keep an old prediction: whenever a
prediction is stored it is the one for the text of the line, and accepting it makes the line
line+prediction, if cutting the prediction into units loses nothing (`Whole`, see C05). -/
theorem C20_fresh_partial (hb : BuiltinKeys E) (hp : E.predictColor.1 ≠ [])
    (hk : ∀ k, Ev.key k ∈ w.input → stales (lookupCommand E k) = false) (hr : Reachable E w s) :
    (s.suffix = if s.units = [] then none else some (stringToMoji E.cfg (E.predict s.text))) ∧
    ∀ (k : Bytes) (rest : List Ev) (s' : St) (o : Option RLRes) (cs : List Char), s.input = .key k :: rest →
      lookupCommand E k = .forwardChar → s.cursor = s.units.length → s.units ≠ [] →
      E.predict s.text = utf8 cs → Whole E.cfg cs → step E s = .ok (s', o) →
      o = none ∧ s'.text = s.text ++ utf8 cs ∧ s'.cursor = s'.units.length := by
  have hf := reachable_fresh hb hk hr
  refine ⟨fresh_suffix hp hf, fun k rest s' o cs hi hc hcur hne hpr hw hst => ?_⟩
  have := fresh_accept hp hf hi hc hcur hne hpr hw hst
  exact ⟨this.1, this.2.1, this.2.2.1⟩

/-! ## Which line the stored prediction is for -/

/-- From `u` to `s` the predictor was not asked again: every event in between left the line as it was
or was a key for one of the five commands `stales`. -/
inductive Spec.Unasked (E : Env) (u : St) : St → Prop
  | here : Unasked E u u
  | idle {s s' : St} : Unasked E u s → step E s = .ok (s', none) → s'.units = s.units → Unasked E u s'
  | stale {s s' : St} {k : Bytes} {rest : List Ev} : Unasked E u s → step E s = .ok (s', none) →
      s.input = .key k :: rest → stales (lookupCommand E k) = true → Unasked E u s'

namespace Ed
variable {L : Logic}

/-- The predictor was asked for the line, or line and prediction are those of before. -/
def Asks (L : Logic) (e e' : Ed) : Prop := Fresh L e' ∨ (e'.line = e.line ∧ e'.suffix = e.suffix)

theorem Asks.trans {a c d : Ed} (h : Asks L a c) (h' : Asks L c d) : Asks L a d := by
  rcases h' with h' | ⟨h1, h2⟩
  · exact .inl h'
  · rcases h with h | ⟨h3, h4⟩
    · exact .inl (fresh_of h h1 h2)
    · exact .inr ⟨h1.trans h3, h2.trans h4⟩

theorem Asks.same (e : Ed) : Asks L e e := .inr ⟨rfl, rfl⟩

theorem backspace_asks (e : Ed) : Asks L e (backspace L e) := by
  unfold backspace
  split
  · exact .inl (predict_fresh _)
  · exact .same e

theorem type_asks (e : Ed) (k : Bytes) : Asks L e (type L e k) := by
  unfold type
  dsimp only
  split
  · exact Asks.trans (c := { e with pending := _ }) (.inr ⟨rfl, rfl⟩) (backspace_asks _)
  · split
    · exact .inl (predict_fresh _)
    · split <;> exact .inl (predict_fresh _)

theorem getKey_asks (e : Ed) : Asks L e (getKey e).2 := by
  unfold getKey
  split <;> exact .inr ⟨rfl, rfl⟩

theorem searchLoop_asks (n : Nat) (it : ISt) (e : Ed) : Asks L e (searchLoop L n it e) := by
  induction n generalizing it e with
  | zero => exact .same e
  | succ n ih =>
    rw [searchLoop]
    have hk := getKey_asks (L := L) e
    cases hg : getKey e with
    | mk k e' =>
      rw [hg] at hk
      cases k with
      | none => exact hk
      | some k =>
        dsimp only
        split
        · exact hk.trans (ih _ _)
        · split
          · exact .inl (predict_fresh _)
          · split
            · exact hk
            · split
              · exact hk.trans (ih _ _)
              · split
                · exact hk.trans (ih _ _)
                · split
                  · exact hk.trans (ih _ _)
                  · exact hk.trans (ih _ _)

theorem call_asks {c : Cmd} (hc : stales c = false) (e : Ed)
    (hr : (call L c e).2 = .cont) : Asks L e (call L c e).1 := by
  cases c with
  | killLine => cases hc
  | killWholeLine => cases hc
  | swapChar => cases hc
  | previousHistory => cases hc
  | nextHistory => cases hc
  | interrupt => cases hr
  | acceptLine => cases hr
  | backwardChar =>
    simp only [call]
    split
    · exact .same e
    · exact .inl (predict_fresh _)
  | endOfLine => exact .inr ⟨rfl, rfl⟩
  | forwardChar =>
    simp only [call]
    split
    · split
      · exact .inl (predict_fresh _)
      · exact .same e
    · exact .inr ⟨rfl, rfl⟩
  | backwardDeleteChar => exact backspace_asks e
  | deleteOrAbort =>
    simp only [call]
    split
    · exact .inl (predict_fresh _)
    · exact .same e
  | quotedInsert =>
    simp only [call]
    have hk := getKey_asks (L := L) e
    cases hg : getKey e with
    | mk k e' =>
      rw [hg] at hk
      cases k with
      | none => exact hk
      | some k => exact hk.trans (type_asks _ k)
  | yank =>
    simp only [call]
    split
    · exact .same e
    · exact .inl (predict_fresh _)
  | yankWithQuote =>
    simp only [call]
    split
    · exact .same e
    · exact .inl (predict_fresh _)
  | undo =>
    simp only [call, undo]
    split
    · exact .same e
    · exact .inl (predict_fresh _)
  | forwardWord => exact .inr ⟨rfl, rfl⟩
  | isearchBackward => exact searchLoop_asks _ _ e
  | selfInsert k => exact type_asks e k
  | custom f => exact .same e
  | completion P =>
    show Asks L e (complete L P e)
    rcases complete_cases L P e with hc | hc | ⟨pos, t, -, -, hc⟩ <;> rw [hc]
    · exact .same e
    · exact .inl (predict_fresh _)
    · exact .inl (predict_fresh _)
  | _ => exact .inl (predict_fresh _)

theorem saveHist_suffix (e : Ed) : (saveHist L e).suffix = e.suffix := by
  unfold saveHist; split <;> rfl

theorem showHist_suffix (e : Ed) : (showHist L e).suffix = e.suffix := by
  unfold showHist
  dsimp only
  split <;> rfl

/-- The five commands leave the prediction alone. -/
theorem call_stale {c : Cmd} (hc : stales c = true) (e : Ed) : (call L c e).1.suffix = e.suffix := by
  cases c with
  | killLine => rfl
  | killWholeLine => rfl
  | swapChar =>
    simp only [call, swap]
    split
    · split <;> rfl
    · split <;> rfl
  | previousHistory =>
    simp only [call, prevHist]
    split
    · rfl
    · split
      · rfl
      · refine (showHist_suffix _).trans ((saveHist_suffix _).trans ?_)
        split <;> rfl
  | nextHistory =>
    simp only [call, nextHist]
    split
    · rfl
    · split
      · rfl
      · exact (showHist_suffix _).trans (saveHist_suffix _)
  | _ => cases hc

theorem call_stale_cont {c : Cmd} (hc : stales c = true) (e : Ed) : (call L c e).2 = .cont := by
  cases c with
  | killLine | killWholeLine | swapChar | previousHistory | nextHistory => rfl
  | _ => cases hc

end Ed

/-- One event: the predictor is asked for the new line, or the stored prediction stays. -/
theorem step_asks {s' : St} (hb : BuiltinKeys E) (h : step E s = .ok (s', none)) :
    Ed.Fresh E.logic s'.ed ∨ (s'.suffix = s.suffix ∧ (s'.units = s.units ∨
      ∃ k rest, s.input = .key k :: rest ∧ stales (lookupCommand E k) = true)) := by
  cases hi : s.input with
  | nil => rw [step, hi] at h; cases h
  | cons x rest =>
    cases x with
    | err e => rw [step, hi] at h; cases h
    | resize n =>
      rw [(step_resize_ed hi h).2]
      exact .inl (Ed.predict_fresh _)
    | key k =>
      obtain ⟨h1, h2⟩ := step_key_ed hi rfl (BuiltinKeys.builtin hb k) h
      have hc : (Ed.call E.logic (lookupCommand E k) { s.ed with input := rest }).2 = .cont := by
        by_cases hc : (Ed.call E.logic (lookupCommand E k) { s.ed with input := rest }).2 = .cont
        · exact hc
        · have := (h2 hc).1; cases this
      rcases (h1 hc).2 with h3 | ⟨_, h3⟩
      · have h3 : s'.ed = _ := h3
        cases hs : stales (lookupCommand E k) with
        | true =>
          refine .inr ⟨?_, .inr ⟨k, rest, rfl, hs⟩⟩
          exact (congrArg Ed.suffix h3).trans (Ed.call_stale hs _)
        | false =>
          have hA := Ed.call_asks hs { s.ed with input := rest } hc
          rw [← h3] at hA
          rcases hA with hA | ⟨hA, hB⟩
          · exact .inl hA
          · refine .inr ⟨hB, .inl ?_⟩
            have hA : s'.line = s.line := hA
            rw [St.units_eq, St.units_eq, hA]
      · have h3 : s'.ed = _ := h3
        rw [h3]
        exact .inl (Ed.predict_fresh _)

/-- **C20**, in every session: the stored prediction is the answer of the predictor for the line of
some state `u` of the session, and since `u` the line changed only by keys for the five commands that
do not ask. -/
theorem C20_asked (hb : BuiltinKeys E) (hp : E.predictColor.1 ≠ []) (hr : Reachable E w s) :
    ∃ u, Reachable E w u ∧ Unasked E u s ∧
      s.suffix = if u.units = [] then none else some (stringToMoji E.cfg (E.predict u.text)) := by
  induction hr with
  | start h =>
    refine ⟨_, .start h, .here, fresh_suffix hp ?_⟩
    rw [(startSt_ed h).1]; exact Ed.predict_fresh _
  | @step s s' h hst ih =>
    rcases step_asks hb hst with hf | ⟨hs, hx⟩
    · exact ⟨_, .step h hst, .here, fresh_suffix hp hf⟩
    · obtain ⟨u, h1, h2, h3⟩ := ih
      refine ⟨u, h1, ?_, hs.trans h3⟩
      rcases hx with hx | ⟨k, rest, hi, hk⟩
      · exact .idle h2 hst hx
      · exact .stale h2 hst hi hk

/-- **C20**: a key for one of the five commands leaves the stored prediction as it is, whatever it
does to the line. -/
theorem C20_stale {k : Bytes} {rest : List Ev} {s' : St} {o : Option RLRes}
    (hi : s.input = .key k :: rest) (hk : stales (lookupCommand E k) = true)
    (h : step E s = .ok (s', o)) : o = none ∧ s'.suffix = s.suffix := by
  have hb : (lookupCommand E k).builtin = true := by
    generalize lookupCommand E k = c at hk
    cases c with
    | killLine | killWholeLine | swapChar | previousHistory | nextHistory => rfl
    | _ => cases hk
  obtain ⟨h1, -⟩ := step_key_ed hi rfl hb h
  obtain ⟨ho, h2⟩ := h1 (Ed.call_stale_cont hk _)
  rcases h2 with h2 | ⟨h2, -⟩
  · have h2 : s'.ed = _ := h2
    exact ⟨ho, (congrArg Ed.suffix h2).trans (Ed.call_stale hk _)⟩
  · rw [h2] at hk; cases hk

/-! ## Predictions from the history -/

/-- What `predictByHistory` predicts: the rest of the newest entry that begins with the line, nothing
if there is none. -/
theorem C20_history (history : List Bytes) (line : Bytes) :
    (∃ older newest newer, history = older ++ newest :: newer ∧
      newest = line ++ predictByHistory history line ∧ ∀ h ∈ newer, ¬ line <+: h) ∨
    ((∀ h ∈ history, ¬ line <+: h) ∧ predictByHistory history line = []) := by
  have main : ∀ hs : List Bytes,
      (∃ newer newest older, hs = newer ++ newest :: older ∧ newest = line ++ predictLoop line hs ∧
        ∀ h ∈ newer, ¬ line <+: h) ∨
      ((∀ h ∈ hs, ¬ line <+: h) ∧ predictLoop line hs = []) := by
    intro hs
    induction hs with
    | nil => exact .inr ⟨by simp, rfl⟩
    | cons h hs ih =>
      rw [predictLoop]
      by_cases hx : line.isPrefixOf h = true
      · rw [if_pos hx]
        obtain ⟨z, rfl⟩ := List.isPrefixOf_iff_prefix.mp hx
        exact .inl ⟨[], _, hs, rfl, by simp, by simp⟩
      · rw [if_neg hx]
        have hx' : ¬ line <+: h := fun hp => hx (List.isPrefixOf_iff_prefix.mpr hp)
        rcases ih with ⟨newer, newest, older, e, h1, h2⟩ | ⟨h1, h2⟩
        · refine .inl ⟨h :: newer, newest, older, by rw [e]; rfl, h1, ?_⟩
          intro y hy
          rcases List.mem_cons.mp hy with rfl | hy
          · exact hx'
          · exact h2 y hy
        · refine .inr ⟨?_, h2⟩
          intro y hy
          rcases List.mem_cons.mp hy with rfl | hy
          · exact hx'
          · exact h1 y hy
  rcases main history.reverse with ⟨newer, newest, older, e, h1, h2⟩ | ⟨h1, h2⟩
  · refine .inl ⟨older.reverse, newest, newer.reverse, ?_, h1, ?_⟩
    · have := congrArg List.reverse e
      simpa using this
    · intro h hh; exact h2 h (by simpa using hh)
  · refine .inr ⟨fun h hh => h1 h (by simpa using hh), h2⟩

/-! ## Without PredictColor -/

theorem off_logic (hp : E.predictColor.1 = []) : E.logic = E.logic.off E.predict := by
  unfold Logic.off Env.logic
  dsimp only
  congr 1
  simp [hp]

/-- **C20**, third part: without `PredictColor` no prediction is stored in any state, and
`FORWARD_CHAR` at the end of the line leaves everything as it is. -/
theorem C20_off (hb : BuiltinKeys E) (hp : E.predictColor.1 = []) (hr : Reachable E w s) :
    s.suffix = none ∧ s.visibleSuffix E = [] ∧
    ∀ (k : Bytes) (rest : List Ev) (s' : St) (o : Option RLRes), s.input = .key k :: rest →
      lookupCommand E k = .forwardChar → s.units.length ≤ s.cursor → step E s = .ok (s', o) →
      o = none ∧ s'.units = s.units ∧ s'.cursor = s.cursor ∧ s'.undoes = s.undoes := by
  have hL := off_logic hp
  have hbare : s.ed.bare = s.ed := by
    induction hr with
    | start h =>
      rw [(startSt_ed h).1, hL]
      unfold Ed.start
      dsimp only
      rw [Ed.predict_off]
      rfl
    | @step s s' h hst ih =>
      have hna : ¬ Accepts E s := by
        rintro ⟨_, _, _, _, _, hx⟩
        apply hx
        unfold St.suffixList
        have : s.suffix = none := congrArg Ed.suffix ih.symm
        rw [this]; rfl
      exact (step_bare hb hL ih hna hst hst).2
  have hs : s.suffix = none := congrArg Ed.suffix hbare.symm
  refine ⟨hs, ?_, ?_⟩
  · unfold St.visibleSuffix; rw [if_pos hp]
  · intro k rest s' o hi hc hcur hst
    obtain ⟨a1, _⟩ := step_key_ed hi hc rfl hst
    obtain ⟨o1, x1⟩ := a1 rfl
    have hx : s'.ed = { s.ed with input := rest } := by
      rcases x1 with x1 | ⟨hx, _⟩
      · rw [x1]
        simp only [Ed.call]
        rw [if_pos, if_neg]
        · show ¬ s.suffixList.length > 0
          unfold St.suffixList
          rw [hs]; simp
        · show s.cursor ≥ (s.ed.line.length : Int)
          rw [St.units_eq, List.length_map] at hcur
          exact hcur
      · cases hx
    have hl : s'.line = s.line := congrArg Ed.line hx
    refine ⟨o1, ?_, congrArg Ed.cursor hx, congrArg Ed.undoes hx⟩
    rw [St.units_eq, St.units_eq, hl]

/-! ## Examples -/

namespace Example

/-- Type `git`, go back and to the end, accept what the history predicts. -/
def git : Env :=
  { env plain with history := [b "git push", b "ls", b "git status"], predictColor := (b "<", b ">") }

example : outcome (readLine git { input := keys ["g", "i", "t", "\x02", "\x05", "\x06", "\r"] }) =
    .inr (b "git status", .nil) := by decide +kernel

/-- Not accepted. -/
example : outcome (readLine git { input := keys ["g", "i", "t", "\x02", "\x05", "\r"] }) =
    .inr (b "git", .nil) := by decide +kernel

example : ∃ s, Reachable git { input := keys ["g", "i", "t", "\x02", "\x05", "\x06", "\r"] } s ∧
    s.suffix = some (stringToMoji plain (b " status")) ∧ s.cursor = 3 ∧ s.units.length = 3 := by
  obtain ⟨s, h1, h2⟩ := gets_ok (E := git) (w := { input := keys ["g", "i", "t", "\x02", "\x05", "\x06", "\r"] })
    (n := 5) (p := fun s => decide (s.suffix = some (stringToMoji plain (b " status")) ∧ s.cursor = 3 ∧ s.units.length = 3))
    (by decide +kernel)
  exact ⟨s, h1, of_decide_eq_true h2⟩

def isForward : Cmd → Bool
  | .forwardChar => true
  | _ => false

/-- The hypotheses of `C20_leak`: predictions are stored all the time, none is accepted. -/
example : ∀ s, Reachable git { input := keys ["g", "i", "t", "\x02", "\x05", "\r"] } s → ¬ Accepts git s := by
  intro s h
  refine noForward_accepts (defaultKeys_builtin plain) ?_ h
  intro k hk
  have : k ∈ [b "g", b "i", b "t", b "\x02", b "\x05", b "\r"] := by
    simpa [keys] using hk
  simp only [List.mem_cons, List.not_mem_nil, or_false] at this
  have hf : isForward (lookupCommand git k) = false := by
    rcases this with rfl | rfl | rfl | rfl | rfl | rfl <;> decide +kernel
  intro h
  rw [h] at hf
  cases hf

example : ({ git with predictColor := ([], []), predictor := some fun _ _ => b "x" } : Env).logic =
    git.logic.off fun _ => b "x" := rfl

/-- Ctrl-U, Escape and so on: the line is empty, the prediction for `git` is still stored. -/
def stale : World := { input := keys ["g", "i", "t", "\x1b", "\x06", "\r"] }

/-- A state that `C20_asked` speaks of, with an outdated prediction. -/
example : ∃ s, Reachable git stale s ∧ s.units = [] ∧ s.suffix = some (stringToMoji plain (b " status")) := by
  obtain ⟨s, h1, h2⟩ := gets_ok (E := git) (w := stale)
    (n := 4) (p := fun s => decide (s.units = [] ∧ s.suffix = some (stringToMoji plain (b " status"))))
    (by decide +kernel)
  exact ⟨s, h1, of_decide_eq_true h2⟩

end Example

/-- **C20** is false in general: `git`, Escape (the line is empty), Ctrl-F: the line is ` status`, what
was predicted for `git`. -/
theorem C20_refuted : ∃ s s', Reachable Example.git Example.stale s ∧ s.units = [] ∧
    step Example.git s = .ok (s', none) ∧ s'.text = b " status" := by
  obtain ⟨s, h1, h2⟩ := gets_ok (E := Example.git) (w := Example.stale) (n := 4)
    (p := fun s => decide (s.units = []) && (match step Example.git s with
      | .ok (s', none) => decide (s'.text = b " status")
      | _ => false)) (by decide +kernel)
  rw [Bool.and_eq_true] at h2
  obtain ⟨h2, h3⟩ := h2
  split at h3
  · rename_i s' hst
    exact ⟨s, s', h1, of_decide_eq_true h2, hst, of_decide_eq_true h3⟩
  · cases h3

end
end Readline
