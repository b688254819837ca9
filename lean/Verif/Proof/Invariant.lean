import Verif.Proof.Frame
import Verif.Spec.Calm
/-!
# The invariant of a session
-/
namespace Readline
open Spec

variable {E : Env} {w : World} {s : St}

theorem BuiltinKeys.builtin (h : BuiltinKeys E) (k : Bytes) : (lookupCommand E k).builtin = true := by
  have := h k
  generalize lookupCommand E k = c at *
  cases c with
  | custom f => exact absurd rfl (this f)
  | _ => rfl

theorem finish_wp {rc : Result} (h : s.inside) :
    Wp (Panic.known E) (finish E s rc) (fun p => p.1.inside) := by
  unfold finish
  cases hsx : s.suffix with
  | none =>
    refine Wp.bind (Wp.pure ?_)
    cases E.lineFeed <;> exact Wp.pure h
  | some x =>
    dsimp only
    refine Wp.bind (Wp.weaken (Wp.mono (repaintNoSuffix_wp E { s with suffix := none } h ?_) ?_)
      Panic.isTab.known)
    · intro _; exact ⟨[], by rw [stringToMoji, stringToMojiLoop]; rfl⟩
    · intro s1 _ e1
      have h1 : s1.inside := e1.inside h
      cases E.lineFeed <;> exact Wp.pure h1

theorem execCmd_wp {c : Cmd} (hb : c.builtin = true) (h : s.inside) (hh : s.histOk E)
    (hu : c = .undo → ∀ u rest, s.undoes = u :: rest → u.fits s.len) :
    Wp (fun p => p.known E ∨ p.crash c) (execCmd E c s) (fun p => p.1.inside) := by
  unfold execCmd
  refine Wp.bind (Wp.mono (call_wp hb h hh hu) ?_)
  rintro ⟨s1, rc⟩ _ h1
  dsimp only
  cases rc with
  | cont => exact Wp.pure h1
  | enter | intr | abort =>
    refine Wp.bind (Wp.weaken (Wp.mono (finish_wp ?_) ?_) fun _ h => Or.inl h)
    · exact h1
    · rintro ⟨s2, r⟩ _ h2
      exact Wp.pure h2

theorem execCmd_wp_known {c : Cmd} (hb : c.builtin = true) (hnc : ∀ P, c ≠ .completion P) (h : s.inside)
    (hh : s.histOk E) (hu : c = .undo → ∀ u rest, s.undoes = u :: rest → u.fits s.len) :
    Wp (Panic.known E) (execCmd E c s) (fun p => p.1.inside) := by
  refine Wp.weaken (execCmd_wp hb h hh hu) ?_
  rintro p (hp | ⟨P, e, -⟩)
  · exact hp
  · exact absurd e (hnc P)

theorem onResize_wp {n : Int} (h : s.inside) :
    Wp (Panic.known E) (onResize E s n) (fun s' => s'.inside) :=
  repaintLastLine_wp (s := { s with termWidth := n }) (Int.le_trans h.1 h.2.1)
    h.2.2

/-- The panic is one that has to be expected: the terminal is too narrow, a tab stands beyond the
column 32767, or the candidates make a completion command panic. -/
def Panic.expected (E : Env) (p : Panic) : Prop := p.known E ∨ ∃ k, p.crash (lookupCommand E k)

theorem step_wp (hb : BuiltinKeys E) (h : s.inside) (hh : s.histOk E)
    (hu : ∀ u rest, s.undoes = u :: rest → u.fits s.len) :
    Wp (Panic.expected E) (step E s) (fun p => p.1.inside) := by
  unfold step
  split
  · exact h
  · exact h
  · refine Wp.bind (Wp.weaken (Wp.mono (onResize_wp ?_) ?_) fun _ h => Or.inl h)
    · exact h
    · intro s1 _ h1; exact Wp.pure h1
  · exact Wp.weaken (execCmd_wp (BuiltinKeys.builtin hb _) h hh (fun _ => hu)) fun _ h => h.imp id (fun h => ⟨_, h⟩)

theorem startSt_wp (hc : 0 ≤ w.cursor) :
    Wp (Panic.known E) (startSt E w) (fun s => s.inside) := by
  unfold startSt
  have hed := promptSt_ed E w
  have h0 : (promptSt E w).len = 0 := by
    rw [← ed_len, hed]; rfl
  have hcur : (promptSt E w).cursor = w.cursor := congrArg Ed.cursor hed
  generalize promptSt E w = s0 at *
  refine Wp.bind (Wp.mono (insertString_wp (Int.le_refl _) (by omega)) ?_)
  rintro ⟨s1, ins⟩ _ ⟨⟨b1, u1, rfl⟩, hl, _⟩
  have key : ∀ s1 : St, 0 ≤ s1.cursor → s1.cursor ≤ s1.len →
      Wp (Panic.known E) (do
        let s ← repaintAfterPrompt E s1
        return s.emit .cursorOn : M St) (fun s => s.inside) := by
    intro s1 h1 h2
    unfold repaintAfterPrompt
    refine Wp.bind (Wp.mono (resetRepaint_wp E s1 h1 h2) ?_)
    intro s2 _ h3
    exact Wp.pure h3
  dsimp only
  split
  · apply key
    · show 0 ≤ St.len _; simp [St.len]
    · exact Int.le_refl _
  · rename_i hx
    apply key
    · show 0 ≤ s0.cursor; omega
    · exact Int.not_lt.mp hx

/-! ## The invariant -/

/-- What holds in every state in which a key is awaited. -/
structure SInv (E : Env) (s : St) (hs : List (List Moji)) : Prop where
  inside : s.inside
  hist : s.histOk E
  ed : Ed.Inv E.logic s.ed hs

theorem SInv.fits {hs : List (List Moji)} (h : SInv E s hs) :
    ∀ u rest, s.undoes = u :: rest → u.fits s.len := by
  intro u rest hu
  have hl := h.ed.log
  have : s.ed.undoes = u :: rest := hu
  rw [this] at hl
  cases hs with
  | nil => exact hl.elim
  | cons x hs =>
    have h1 := hl.1
    rw [← ed_len]
    exact h1

theorem SInv.step_wp {hs : List (List Moji)} (hb : BuiltinKeys E) (h : SInv E s hs) :
    Wp (Panic.expected E) (step E s) (fun p => p.1.inside) :=
  Readline.step_wp hb h.inside h.hist h.fits

theorem SInv.tailTidy {hs : List (List Moji)} (h : SInv E s hs) (ht : Tidy E.cfg s) :
    TailTidy E.cfg s.line := by
  intro m hm ho
  have hbm : Built E.cfg m := h.ed.built m (List.mem_of_mem_tail hm)
  have hu : m.write ∈ s.units.tail := by
    rw [St.units_eq, ← List.map_tail]
    exact List.mem_map.mpr ⟨m, hm, rfl⟩
  exact ht _ hu ((orphan_iff hbm).mp ho)

theorem start_inv (hc : 0 ≤ w.cursor) (h : startSt E w = .ok s) : SInv E s [[]] := by
  have hw := startSt_wp (E := E) (w := w) hc
  have he := (startSt_ed h).1
  refine ⟨hw.ok h, ?_, ?_⟩
  · have : s.histPtr = E.histLen := by
      have := congrArg Ed.histPtr he
      simp [Ed.start, Ed.histLen, Env.logic, Env.histLen] at this ⊢; exact this
    unfold St.histOk
    rw [this]
    unfold Env.histLen
    omega
  · rw [he]
    refine ⟨?_, ?_⟩
    · simp only [Ed.start, Ed.predict_line]
      exact segs_built _ _
    · simp only [Ed.start, Ed.predict_line, Ed.predict_undoes]
      refine ⟨⟨Int.le_refl _, by simp⟩, ?_, trivial⟩
      simp [undoLine, segs_nil]

theorem step_key_inv {s' : St} {hs hs' : List (List Moji)} {k : Bytes} {rest : List Ev}
    (hb : BuiltinKeys E) (h : SInv E s hs) (hi : s.input = .key k :: rest)
    (hst : step E s = .ok (s', none))
    (hinv : Ed.Inv E.logic (Ed.call E.logic (lookupCommand E k) { s.ed with input := rest }).1 hs') :
    SInv E s' hs' ∧
      s'.line = (Ed.call E.logic (lookupCommand E k) { s.ed with input := rest }).1.line ∧
      (Ed.call E.logic (lookupCommand E k) { s.ed with input := rest }).2 = .cont := by
  have hin : s'.inside := (h.step_wp hb).ok hst
  obtain ⟨h1, h2⟩ := step_key_ed hi rfl (BuiltinKeys.builtin hb k) hst
  have hcont : (Ed.call E.logic (lookupCommand E k) { s.ed with input := rest }).2 = .cont := by
    by_cases hx : (Ed.call E.logic (lookupCommand E k) { s.ed with input := rest }).2 = .cont
    · exact hx
    · have := (h2 hx).1
      simp at this
  obtain ⟨-, h1⟩ := h1 hcont
  have hfields : s'.line = (Ed.call E.logic (lookupCommand E k) { s.ed with input := rest }).1.line ∧
      Ed.Inv E.logic s'.ed hs' ∧ s'.histPtr =
        (Ed.call E.logic (lookupCommand E k) { s.ed with input := rest }).1.histPtr := by
    rcases h1 with he | ⟨-, he⟩
    · exact ⟨congrArg Ed.line he, by rw [he]; exact hinv, congrArg Ed.histPtr he⟩
    · refine ⟨?_, ?_, ?_⟩
      · have := congrArg Ed.line he; simp at this; exact this
      · rw [he]; exact ⟨by simpa using hinv.built, by simpa using hinv.log⟩
      · have := congrArg Ed.histPtr he; simp at this; exact this
  refine ⟨⟨hin, ?_, hfields.2.1⟩, hfields.1, hcont⟩
  unfold St.histOk
  rw [hfields.2.2]
  exact Ed.call_histOk E.logic _ _ h.hist.1 h.hist.2

theorem step_resize_inv {s' : St} {hs : List (List Moji)} {n : Int} {rest : List Ev}
    (hb : BuiltinKeys E) (h : SInv E s hs) (hi : s.input = .resize n :: rest)
    (hst : step E s = .ok (s', none)) : SInv E s' hs ∧ s'.line = s.line := by
  have hin : s'.inside := (h.step_wp hb).ok hst
  obtain ⟨-, he⟩ := step_resize_ed hi hst
  refine ⟨⟨hin, ?_, ?_⟩, ?_⟩
  · have : s'.histPtr = s.histPtr := by
      have := congrArg Ed.histPtr he
      simp at this
      exact this
    unfold St.histOk; rw [this]; exact h.hist
  · rw [he]
    exact ⟨by simpa using h.ed.built, by simpa using h.ed.log⟩
  · have := congrArg Ed.line he
    simp at this
    exact this

/-- The next state of a calm session. -/
theorem step_inv {s' : St} {hs : List (List Moji)} (hb : BuiltinKeys E) (h : SInv E s hs)
    (hcalm : Calm E s) (hst : step E s = .ok (s', none)) :
    ∃ hs', SInv E s' hs' ∧
      ((∃ n rest, s.input = .resize n :: rest ∧ s'.line = s.line ∧ hs' = hs) ∨
       (∃ k rest, s.input = .key k :: rest ∧ Snap (lookupCommand E k) s.line hs s'.line hs' ∧
          lookupCommand E k ≠ .interrupt)) := by
  cases hi : s.input with
  | nil => rw [step, hi] at hst; cases hst
  | cons ev rest =>
    cases ev with
    | err e => rw [step, hi] at hst; cases hst
    | resize n =>
      obtain ⟨h1, h2⟩ := step_resize_inv hb h hi hst
      exact ⟨hs, h1, Or.inl ⟨n, rest, rfl, h2, rfl⟩⟩
    | key k =>
      have hlen : s.ed.line.length = s.len := by rw [← ed_len]; rfl
      obtain ⟨hs', hinv, hsnap⟩ := Ed.call_inv (L := E.logic) (e := { s.ed with input := rest })
        (hs := hs) (BuiltinKeys.builtin hb k) ⟨h.ed.built, h.ed.log⟩
        (by show 0 ≤ s.cursor; have := h.inside; unfold St.inside at this; omega)
        (by show s.cursor ≤ s.ed.line.length; rw [hlen]; exact h.inside.2.2)
        (h.tailTidy hcalm.1)
        (by
          intro hsw hx
          apply hcalm.2 k rest hi hsw
          have hx1 : s.cursor = s.ed.line.length := hx.1
          have hx2 : 2 ≤ s.ed.line.length := hx.2
          rw [hlen] at hx1
          exact ⟨hx1, by omega⟩)
      obtain ⟨h1, h2, h3⟩ := step_key_inv hb h hi hst hinv
      refine ⟨hs', h1, Or.inr ⟨k, rest, rfl, ?_, ?_⟩⟩
      · rw [h2]
        exact hsnap
      · intro hx
        rw [hx] at h3
        cases h3

/-- Undo needs no calm. -/
theorem step_undo_inv {s' : St} {hs : List (List Moji)} {k : Bytes} {rest : List Ev}
    (hb : BuiltinKeys E) (h : SInv E s hs) (hi : s.input = .key k :: rest)
    (hk : lookupCommand E k = .undo) (hst : step E s = .ok (s', none)) :
    SInv E s' hs.tail ∧ s'.line = hs.headD s.line := by
  obtain ⟨hs', h1, -, rfl, h2⟩ := Ed.undo_inv (L := E.logic) (e := { s.ed with input := rest })
    (hs := hs) ⟨h.ed.built, h.ed.log⟩
  have hcall : Ed.call E.logic (lookupCommand E k) { s.ed with input := rest } =
      (Ed.undo E.logic { s.ed with input := rest }, .cont) := by rw [hk]; rfl
  obtain ⟨h3, h4, -⟩ := step_key_inv (hs' := hs.tail) hb h hi hst (by rw [hcall]; exact h1)
  refine ⟨h3, ?_⟩
  rw [h4, hcall]
  exact h2

theorem calm_inv (hb : BuiltinKeys E) (hc : 0 ≤ w.cursor) (h : CalmReachable E w s) :
    ∃ hs, SInv E s hs := by
  induction h with
  | start h => exact ⟨_, start_inv hc h⟩
  | step _ hcalm hst ih =>
    obtain ⟨hs, hi⟩ := ih
    obtain ⟨hs', hi', -⟩ := step_inv hb hi hcalm hst
    exact ⟨hs', hi'⟩

/-! ## Errors of `readLine` -/

theorem bind_error {x : M α} {f : α → M β} {e : Panic} (h : (x >>= f) = .error e) :
    x = .error e ∨ ∃ a, x = .ok a ∧ f a = .error e := by
  cases x with
  | ok a => exact Or.inr ⟨a, rfl, h⟩
  | error e' => left; simpa [bind, Except.bind] using h

theorem popKey_sublist {inp : List Ev} {k : Ev} {rest : List Ev} (h : popKey inp = some (k, rest)) :
    rest.Sublist inp := by
  induction inp generalizing k rest with
  | nil => cases h
  | cons e inp ih =>
    cases e with
    | resize w =>
      rw [popKey] at h
      cases hp : popKey inp with
      | none => rw [hp] at h; cases h
      | some q =>
        obtain ⟨k', r'⟩ := q
        rw [hp] at h
        simp only [Option.some.injEq, Prod.mk.injEq] at h
        obtain ⟨rfl, rfl⟩ := h
        exact (ih hp).cons_cons _
    | key k' => rw [popKey] at h; cases h; simp; simp
    | err e' => rw [popKey] at h; cases h; simp; simp

theorem Ed.getKey_input (e : Ed) : (Ed.getKey e).2.input.Sublist e.input := by
  unfold Ed.getKey
  split
  · rename_i hp; exact popKey_sublist hp
  · rename_i hp; exact popKey_sublist hp
  · exact List.Sublist.refl _

theorem Ed.searchLoop_input (L : Logic) (n : Nat) (it : ISt) (e : Ed) :
    (Ed.searchLoop L n it e).input.Sublist e.input := by
  induction n generalizing it e with
  | zero => exact List.Sublist.refl _
  | succ n ih =>
    unfold Ed.searchLoop
    have hf := Ed.getKey_input e
    cases hk : Ed.getKey e with
    | mk k e' =>
      rw [hk] at hf
      have ih' : ∀ it, (Ed.searchLoop L n it e').input.Sublist e.input :=
        fun it => (ih it e').trans hf
      cases k with
      | none => exact hf
      | some key =>
        dsimp only
        split
        · exact ih' _
        split
        · rw [(Ed.replace_frame L _ 0 it.found).input]; exact hf
        split
        · exact hf
        split
        · exact ih' _
        split
        · exact ih' _
        split
        · exact ih' _
        · exact ih' _

/-- A command never gives back events. -/
theorem Ed.call_input (L : Logic) (c : Cmd) (e : Ed) :
    (Ed.call L c e).1.input.Sublist e.input := by
  have fr : ∀ e', Ed.Frame e e' → e'.input.Sublist e.input :=
    fun e' h => by rw [h.input]; exact List.Sublist.refl _
  cases c with
  | previousHistory =>
    have hs : ∀ e, (Ed.showHist L e).input = e.input := by
      intro e; unfold Ed.showHist; dsimp only; split <;> rfl
    have hsv : ∀ e, (Ed.saveHist L e).input = e.input := by
      intro e; unfold Ed.saveHist; split <;> rfl
    simp only [Ed.call, Ed.prevHist]
    split
    · exact List.Sublist.refl _
    · split
      · exact List.Sublist.refl _
      · rw [hs]
        simp only [hsv]
        split <;> exact List.Sublist.refl _
  | nextHistory =>
    have hs : ∀ e, (Ed.showHist L e).input = e.input := by
      intro e; unfold Ed.showHist; dsimp only; split <;> rfl
    have hsv : ∀ e, (Ed.saveHist L e).input = e.input := by
      intro e; unfold Ed.saveHist; split <;> rfl
    simp only [Ed.call, Ed.nextHist]
    split
    · exact List.Sublist.refl _
    · split
      · exact List.Sublist.refl _
      · rw [hs]
        simp only [hsv]
        exact List.Sublist.refl _
  | acceptLine => exact List.Sublist.refl _
  | interrupt => exact List.Sublist.refl _
  | beginningOfLine => simp [Ed.call]
  | backwardChar => simp only [Ed.call]; split <;> simp
  | endOfLine => exact List.Sublist.refl _
  | forwardChar =>
    simp only [Ed.call]
    split
    · split
      · exact fr _ (Ed.replace_frame L e _ _)
      · exact List.Sublist.refl _
    · exact List.Sublist.refl _
  | backwardDeleteChar => exact fr _ (Ed.backspace_frame L e)
  | deleteChar => exact fr _ ((Ed.delete_frame e _ _).trans (Ed.predict_frame L _))
  | deleteOrAbort =>
    simp only [Ed.call]
    split
    · exact fr _ ((Ed.delete_frame e _ _).trans (Ed.predict_frame L _))
    · exact List.Sublist.refl _
  | killLine => exact List.Sublist.refl _
  | killWholeLine => exact List.Sublist.refl _
  | unixWordRubout =>
    simp only [Ed.call, Ed.wordRubout, Ed.predict_input]
    rw [(Ed.delete_frame _ _ _).input]; exact List.Sublist.refl _
  | unixLineDiscard =>
    simp only [Ed.call, Ed.predict_input]
    rw [(Ed.delete_frame _ _ _).input]; exact List.Sublist.refl _
  | clearScreen => simp [Ed.call]
  | repaintOnNewline => simp [Ed.call]
  | quotedInsert =>
    simp only [Ed.call]
    have hf := Ed.getKey_input e
    cases hk : Ed.getKey e with
    | mk k e' =>
      rw [hk] at hf
      cases k with
      | none => exact hf
      | some k => dsimp only; rw [(Ed.type_frame L e' k).input]; exact hf
  | yank =>
    simp only [Ed.call]
    split
    · exact List.Sublist.refl _
    · exact fr _ (Ed.replace_frame L e _ _)
  | yankWithQuote =>
    simp only [Ed.call]
    split
    · exact List.Sublist.refl _
    · exact fr _ (Ed.replace_frame L e _ _)
  | swapChar => exact fr _ (Ed.swap_frame e)
  | backwardWord => simp [Ed.call]
  | forwardWord => exact List.Sublist.refl _
  | undo => exact fr _ (Ed.undo_frame L e)
  | isearchBackward => exact Ed.searchLoop_input L _ _ e
  | selfInsert k => exact fr _ (Ed.type_frame L e k)
  | completion P => exact fr _ (Ed.complete_frame L P e)
  | custom => exact List.Sublist.refl _

/-- Every step consumes the next event, and a command may consume further keys. -/
theorem step_sublist {s' : St} (hb : BuiltinKeys E)
    (hst : step E s = .ok (s', none)) : ∃ ev rest, s.input = ev :: rest ∧ s'.input.Sublist rest := by
  cases hi : s.input with
  | nil => rw [step, hi] at hst; cases hst
  | cons ev rest =>
    cases ev with
    | err e => rw [step, hi] at hst; cases hst
    | resize n =>
      obtain ⟨-, he⟩ := step_resize_ed hi hst
      have : s'.input = rest := by
        have := congrArg Ed.input he
        simp at this
        exact this
      exact ⟨_, _, rfl, by rw [this]; exact List.Sublist.refl _⟩
    | key k =>
      obtain ⟨h1, h2⟩ := step_key_ed hi rfl (BuiltinKeys.builtin hb k) hst
      have hc := Ed.call_input E.logic (lookupCommand E k) { s.ed with input := rest }
      have hcont : (Ed.call E.logic (lookupCommand E k) { s.ed with input := rest }).2 = .cont := by
        by_cases hx : (Ed.call E.logic (lookupCommand E k) { s.ed with input := rest }).2 = .cont
        · exact hx
        · have := (h2 hx).1
          simp at this
      obtain ⟨-, h1⟩ := h1 hcont
      have : s'.input = (Ed.call E.logic (lookupCommand E k) { s.ed with input := rest }).1.input := by
        rcases h1 with he | ⟨-, he⟩
        · exact congrArg Ed.input he
        · have := congrArg Ed.input he; simp at this; exact this
      exact ⟨_, _, rfl, by rw [this]; exact hc⟩

theorem step_input {s' : St} (hb : BuiltinKeys E) (hst : step E s = .ok (s', none)) :
    s'.input.length < s.input.length := by
  obtain ⟨ev, rest, h1, h2⟩ := step_sublist hb hst
  rw [h1]
  exact Nat.lt_succ_of_le h2.length_le

theorem startSt_input (h : startSt E w = .ok s) : s.input = w.input := by
  have := congrArg Ed.input (startSt_ed h).1
  simp [Ed.start] at this
  exact this

theorem reachable_input (hb : BuiltinKeys E) (h : Reachable E w s) :
    s.input.Sublist w.input := by
  induction h with
  | start h => rw [startSt_input h]; exact List.Sublist.refl _
  | step _ h ih =>
    obtain ⟨ev, rest, h1, h2⟩ := step_sublist hb h
    rw [h1] at ih
    exact h2.trans ((List.sublist_cons_self _ _).trans ih)

/-- When `loop` fails, a step failed: the loop never runs out of fuel. -/
theorem loop_error {n : Nat} {p : Panic} (hb : BuiltinKeys E)
    (hs : Reachable E w s) (hn : s.input.length < n) (h : loop E n s = .error p) :
    ∃ t, Reachable E w t ∧ step E t = .error p := by
  induction n generalizing s with
  | zero => omega
  | succ n ih =>
    rw [loop] at h
    rcases bind_error h with h | ⟨⟨s1, o⟩, h1, h⟩
    · exact ⟨s, hs, h⟩
    · cases o with
      | some r => cases h
      | none =>
        exact ih (.step hs h1) (by have := step_input hb h1; omega) h

theorem readLine_error {p : Panic} (hb : BuiltinKeys E) (h : readLine E w = .error p) :
    startSt E w = .error p ∨ ∃ t, Reachable E w t ∧ step E t = .error p := by
  unfold readLine at h
  rcases bind_error h with h | ⟨s, h1, h⟩
  · exact Or.inl h
  · exact Or.inr (loop_error hb (.start h1) (Nat.lt_succ_self _) h)

end Readline
