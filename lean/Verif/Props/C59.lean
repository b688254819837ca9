import Verif.Props.C08
import Verif.Proof.Own
import Verif.Spec.Browse
/-!
# C59: own commands that follow four rules are as safe as the built-in ones

A program can bind functions of its own to keys.  `Own` (Model/Own) is any function made of the
exported methods and fields of `Buffer` and of other commands.  The rules (`Spec.Allowed`): name only positions
of the line, have the cursor and the scroll offset inside the line when something is drawn and at the end,
do not assign `Buffer`, and leave the two situations alone that are not calm (C01).

* `C59_inside_partial`: cursor and scroll offset are inside the line whenever a key is awaited;
* `C59_partial`: the session panics only where a session of built-in commands may panic (C01);
* `C59_undo_partial`: Undo walks back through the lines, call by call, and ends at the empty line;
* `C59_replace`: what `ReplaceAndRepaint` does to the line.

`C59_refuted_scrolled` and `C59_refuted_undo`: the command of examples/example4.go assigns `Buffer`, and panics
when the line is scrolled, or makes a later Undo panic.  `lawfulEditor` is a version that follows the rules.
-/
namespace Readline
open Spec

variable {E : Env} {w : World} {s : St}

theorem LogInv.to_own {hs : List (List Moji)} (h : LogInv E s hs) : LogInv E.own s hs :=
  ⟨h.hist, ⟨h.ed.built, h.ed.log⟩⟩
theorem LogInv.of_own {hs : List (List Moji)} (h : LogInv E.own s hs) : LogInv E s hs :=
  ⟨h.hist, ⟨h.ed.built, h.ed.log⟩⟩

/-- What a key does to the lines that Undo brings back. -/
inductive Spec.KeySnap {α : Type} (E : Env) (f : St → List α) (c : Cmd) (s : St) (stk : List (List α)) (s' : St) :
    List (List α) → Prop where
  | builtin {stk'} : (∀ g, c ≠ .custom g) → Snap c (f s) stk (f s') stk' → KeySnap E f c s stk s' stk'
  | own {p stk'} : c = .custom (Own.run E.own p) → OwnSnap E.own f p s stk s' stk' → KeySnap E f c s stk s' stk'

/-- A key bound to a built-in command or a lawful own command. -/
theorem key_wp {c : Cmd} {hs : List (List Moji)} (h : LogInv E s hs) (hin : s.inside) (ht : Tidy E.cfg s)
    (hn : c = .swapChar → ¬ (s.cursor = s.buf.length ∧ 2 ≤ s.buf.length))
    (hl : ∀ f, c = .custom f → ∃ p, f = Own.run E.own p ∧ Lawful E.own p) :
    Wp (Panic.foreseen E) (Cmd.call E c s) (fun q => q.1.inside ∧ q.1.input.Sublist s.input ∧
      ∃ hs', LogInv E q.1 hs' ∧ KeySnap E St.line c s hs q.1 hs' ∧
        ((s.line :: hs).getLastD [] = [] → (q.1.line :: hs').getLastD [] = [])) := by
  by_cases hc : ∃ f, c = .custom f
  · obtain ⟨f, rfl⟩ := hc
    obtain ⟨p, rfl, hp⟩ := hl f rfl
    refine Wp.mono (Wp.weaken (own_wp h.to_own (hp s hin ht)) ?_) ?_
    · exact fun _ h => h
    · rintro ⟨s', r⟩ _ ⟨h1, h2, hs', h3, h4, h5⟩
      exact ⟨h1, h2, hs', h3.of_own, .own rfl h4, h5⟩
  · have hb : ∀ f, c ≠ .custom f := fun f e => hc ⟨f, e⟩
    have hA : Allowed E.cfg (.call c) s := ⟨hb, hin, ht, hn⟩
    have hw := act_wp hA h
    cases hr : Cmd.call E c s with
    | error e =>
      have : Api.run E (.call c) s = .error e := by simp only [Api.run, hr]; rfl
      rw [this] at hw
      exact hw
    | ok q =>
      obtain ⟨s', r⟩ := q
      have : Api.run E (.call c) s = .ok (s', .result r) := by simp only [Api.run, hr]; rfl
      obtain ⟨hs', h1, h2, h3, h4⟩ := act_inv hA h this
      have hi := (call_wp (builtin_of hb) hin h.hist (fun _ => h.fits)).ok hr
      refine ⟨hi, h4, hs', h1, .builtin hb ?_, h3⟩
      cases h2 with
      | keep h => exact absurd rfl (h c)
      | push h => exact h.elim
      | merge h => rcases h with ⟨_, h⟩ | ⟨_, _, h⟩ <;> cases h
      | call h5 h6 => cases h5; exact h6

/-- The state in which the command of the next key starts. -/
def Spec.called (s : St) (rest : List Ev) : St := { s.emit .await with input := rest }.emit .cursorOff

theorem resize_wp {n : Int} {hs : List (List Moji)} (h : SInv E s hs) :
    Wp (Panic.foreseen E) (onResize E s n) (fun s' => SInv E s' hs ∧ s'.line = s.line ∧ s'.input = s.input) := by
  refine Wp.mono (Wp.weaken (onResize_wp h.inside) fun _ h => Or.inl h) ?_
  intro s' hr hi
  have he := onResize_ed hr
  have hl : s'.ed.line = s.ed.line := by rw [he]; simp
  have hu : s'.ed.undoes = s.ed.undoes := by rw [he]; simp
  have hp : s'.ed.histPtr = s.ed.histPtr := by rw [he]; simp
  have hn : s'.ed.input = s.ed.input := by rw [he]; simp
  refine ⟨⟨hi, ?_, ?_, ?_⟩, hl, hn⟩
  · unfold St.histOk
    rw [show s'.histPtr = s.histPtr from hp]
    exact h.hist
  · rw [hl]; exact h.ed.built
  · rw [hl, hu]; exact h.ed.log

/-- One step of a session with own commands. -/
theorem own_step {hs : List (List Moji)} (hk : LawfulKeys E) (h : SInv E s hs) (hcalm : Calm E s) :
    Wp (Panic.foreseen E) (step E s) (fun q => q.2 = none →
      ∃ ev rest hs', s.input = ev :: rest ∧ q.1.input.Sublist rest ∧ SInv E q.1 hs' ∧
        ((s.line :: hs).getLastD [] = [] → (q.1.line :: hs').getLastD [] = []) ∧
        ((∃ n, ev = .resize n) ∧ q.1.line = s.line ∧ hs' = hs ∨
          ∃ k s1, ev = .key k ∧ KeySnap E St.line (lookupCommand E k) (called s rest) hs s1 hs' ∧ q.1 = s1.emit .cursorOn)) := by
  unfold step
  split
  · exact nofun
  · exact nofun
  · rename_i n rest hi
    have h' : SInv E { s with input := rest } hs := ⟨h.inside, h.hist, ⟨h.ed.built, h.ed.log⟩⟩
    refine Wp.bind (Wp.mono (resize_wp h') ?_)
    intro s1 _ ⟨h1, h2, h3⟩
    refine Wp.pure fun _ => ⟨_, rest, hs, hi, by rw [h3]; exact List.Sublist.refl _, h1, ?_, Or.inl ⟨⟨n, rfl⟩, h2, rfl⟩⟩
    rw [h2]; exact id
  · rename_i k rest hi
    unfold execCmd
    dsimp only
    have h' : LogInv E (called s rest) hs := ⟨h.hist, ⟨h.ed.built, h.ed.log⟩⟩
    refine Wp.bind (Wp.mono (key_wp (c := lookupCommand E k) h' h.inside hcalm.1 ?_ (hk k)) ?_)
    · intro hsw hx
      exact hcalm.2 k rest hi hsw ⟨hx.1, by have := hx.2; show (2 : Int) ≤ (s.buf.length : Int); have : 2 ≤ s.buf.length := this; omega⟩
    · rintro ⟨s1, rc⟩ _ ⟨h1, h2, hs', h3, h4, h5⟩
      cases rc with
      | cont =>
        refine Wp.pure fun _ => ⟨_, rest, hs', hi, h2, ⟨h1, h3.hist, h3.ed⟩, h5, Or.inr ⟨k, s1, rfl, h4, rfl⟩⟩
      | enter | intr | abort =>
        refine Wp.bind (Wp.weaken (Wp.mono (finish_wp ?_) ?_) fun _ h => Or.inl h)
        · exact h1
        · rintro ⟨s2, r⟩ _ _
          exact Wp.pure nofun

theorem lawful_inv (hk : LawfulKeys E) (hc : 0 ≤ w.cursor) (h : CalmReachable E w s) :
    ∃ hs, SInv E s hs ∧ s.input.Sublist w.input := by
  induction h with
  | start h => exact ⟨_, start_inv hc h, by rw [startSt_input h]; exact List.Sublist.refl _⟩
  | step _ hcalm hst ih =>
    obtain ⟨hs, hi, hl⟩ := ih
    obtain ⟨ev, rest, hs', h1, h2, h3, -⟩ := (own_step hk hi hcalm).ok hst rfl
    exact ⟨hs', h3, by rw [h1] at hl; exact h2.trans ((List.sublist_cons_self _ _).trans hl)⟩

/-- `0 ≤ ViewStart ≤ Cursor ≤ len(Buffer)` whenever a key is awaited, whatever own commands that follow
the rules have done. -/
theorem C59_inside_partial (hk : LawfulKeys E) (hc : 0 ≤ w.cursor) (h : CalmReachable E w s) :
    0 ≤ s.viewStart ∧ s.viewStart ≤ s.cursor ∧ s.cursor ≤ s.buf.length := by
  obtain ⟨hs, hi, -⟩ := lawful_inv hk hc h
  exact hi.inside

theorem lawful_loop_error {n : Nat} {p : Panic} (hk : LawfulKeys E) (hc : 0 ≤ w.cursor)
    (hcalm : ∀ s, Reachable E w s → Calm E s)
    (hs : Reachable E w s) (hn : s.input.length < n) (h : loop E n s = .error p) :
    ∃ t, Reachable E w t ∧ step E t = .error p := by
  induction n generalizing s with
  | zero => omega
  | succ n ih =>
    rw [loop] at h
    rcases bind_error h with h | ⟨⟨s1, o⟩, h1, h⟩
    · exact ⟨s, hs, h⟩
    · cases o with
      | some r => cases h
      | none =>
        refine ih (.step hs h1) ?_ h
        obtain ⟨hs1, hi, -⟩ := lawful_inv hk hc (CalmReachable.of_reachable hcalm hs)
        obtain ⟨ev, rest, hs', h1, h2, -⟩ := (own_step hk hi (hcalm s hs)).ok h1 rfl
        rw [h1] at hn
        have := h2.length_le
        simp at hn this
        omega

/-- A session with own commands that follow the rules panics only for want of room on the screen, at a
tab beyond the column 32767, or for the candidates of a completion command; `ReadLine` ends when the
events do. -/
theorem C59_partial {p : Panic} (hk : LawfulKeys E) (hc : 0 ≤ w.cursor)
    (hcalm : ∀ s, Reachable E w s → Calm E s) (h : readLine E w = .error p) :
    (p.kind = .bounds ∧ p.st.narrow E.cfg) ∨ (p.kind = .tabPos ∧ TabBad E p.st) ∨ ∃ c, p.crash c := by
  have : p.foreseen E := by
    unfold readLine at h
    rcases bind_error h with h | ⟨s, h1, h⟩
    · exact Or.inl ((startSt_wp hc).error h)
    · obtain ⟨t, ht, h⟩ := lawful_loop_error hk hc hcalm (.start h1) (Nat.lt_succ_self _) h
      obtain ⟨hs, hi, -⟩ := lawful_inv hk hc (CalmReachable.of_reachable hcalm ht)
      exact (own_step hk hi (hcalm t ht)).error h
  rcases this with this | this
  · exact this.symm.imp id Or.inl
  · exact Or.inr (Or.inr this)

/-- Without joined characters and SwapChar keys the rules are all that is needed. -/
theorem lawful_calm (hk : LawfulKeys E) (hc : 0 ≤ w.cursor)
    (hz : E.cfg.zwjOk = false) (hv : E.cfg.varOk = false) (hm : E.cfg.modOk = false)
    (hsw : ∀ k, .key k ∈ w.input → lookupCommand E k ≠ .swapChar) (h : Reachable E w s) :
    CalmReachable E w s ∧ Calm E s := by
  have key : ∀ s, CalmReachable E w s → Calm E s := by
    intro s hs
    refine ⟨?_, ?_⟩
    · intro u _ hj
      rcases hj with ⟨h, -⟩ | ⟨h, -⟩ | ⟨h, -⟩
      · rw [hz] at h; cases h
      · rw [hv] at h; cases h
      · rw [hm] at h; cases h
    · intro k rest hi hk'
      obtain ⟨_, -, hl⟩ := lawful_inv hk hc hs
      exact absurd hk' (hsw k (hl.subset (by rw [hi]; simp)))
  have : CalmReachable E w s := by
    induction h with
    | start h => exact .start h
    | step _ h ih => exact .step ih (key _ ih) h
  exact ⟨this, key s this⟩

/-- The same with conditions on the terminal and the keys only. -/
theorem C59_plain_partial {p : Panic} (hk : LawfulKeys E) (hc : 0 ≤ w.cursor)
    (hz : E.cfg.zwjOk = false) (hv : E.cfg.varOk = false) (hm : E.cfg.modOk = false)
    (hsw : ∀ k, .key k ∈ w.input → lookupCommand E k ≠ .swapChar) (h : readLine E w = .error p) :
    (p.kind = .bounds ∧ p.st.narrow E.cfg) ∨ (p.kind = .tabPos ∧ TabBad E p.st) ∨ ∃ c, p.crash c :=
  C59_partial hk hc (fun _ hs => (lawful_calm hk hc hz hv hm hsw hs).2) h

/-! ## Undo -/

/-- `Recalls E w s stk`: the session has reached `s` and Undo has to bring back `stk`. -/
inductive Spec.Recalls (E : Env) (w : World) : St → List (List Bytes) → Prop where
  | start {s : St} : startSt E w = .ok s → Recalls E w s [[]]
  | resize {s s' : St} {stk n rest} : Recalls E w s stk → s.input = .resize n :: rest →
      step E s = .ok (s', none) → Recalls E w s' stk
  | key {s s' s1 : St} {stk stk' k rest} : Recalls E w s stk → s.input = .key k :: rest →
      step E s = .ok (s', none) → KeySnap E St.units (lookupCommand E k) (called s rest) stk s1 stk' →
      s' = s1.emit .cursorOn → Recalls E w s' stk'

theorem ActSnap.map {α β : Type} {f : α → β} {a : Api} {l l' : List α} {stk stk' : List (List α)}
    (h : ActSnap a l stk l' stk') : ActSnap a (l.map f) (stk.map (·.map f)) (l'.map f) (stk'.map (·.map f)) := by
  cases h with
  | keep h1 h2 h3 => exact .keep h1 h2 (by rw [h3])
  | push h1 => exact .push h1
  | merge h1 h2 h3 =>
    obtain ⟨p, t, h3⟩ := h3
    refine .merge h1 (by simpa using h2) ⟨p, t.map f, ?_⟩
    rw [h3]; simp
  | call h1 h2 => exact .call h1 h2.map

theorem OwnSnap.units {p : Own} {s s' : St} {stk stk' : List (List Moji)} (h : OwnSnap E St.line p s stk s' stk') :
    OwnSnap E St.units p s (stk.map (·.map Moji.write)) s' (stk'.map (·.map Moji.write)) := by
  induction h with
  | ret => exact .ret
  | look _ ih => exact .look ih
  | act h1 h2 _ ih =>
    refine .act h1 ?_ ih
    rw [St.units_eq, St.units_eq]
    exact ActSnap.map h2

theorem KeySnap.units {c : Cmd} {s s' : St} {stk stk' : List (List Moji)} (h : KeySnap E St.line c s stk s' stk') :
    KeySnap E St.units c s (stk.map (·.map Moji.write)) s' (stk'.map (·.map Moji.write)) := by
  cases h with
  | builtin h1 h2 =>
    refine .builtin h1 ?_
    rw [St.units_eq, St.units_eq]
    exact h2.map
  | own h1 h2 => exact .own h1 (OwnSnap.units h2)

theorem recalls_inv (hk : LawfulKeys E) (hc : 0 ≤ w.cursor) (h : CalmReachable E w s) :
    ∃ hs, SInv E s hs ∧ Recalls E w s (hs.map (·.map Moji.write)) ∧ (s.line :: hs).getLastD [] = [] := by
  induction h with
  | start h => exact ⟨[[]], start_inv hc h, .start h, rfl⟩
  | @step s s' hr hcalm hst ih =>
    obtain ⟨hs, h1, h2, h3⟩ := ih
    obtain ⟨ev, rest, hs', hi, -, h4, h5, h6⟩ := (own_step hk h1 hcalm).ok hst rfl
    refine ⟨hs', h4, ?_, h5 h3⟩
    rcases h6 with ⟨⟨n, rfl⟩, -, rfl⟩ | ⟨k, s1, rfl, h7, h8⟩
    · exact .resize h2 hi hst
    · exact .key h2 hi hst (KeySnap.units h7) h8

/-- Undo keys need no rules. -/
theorem lawful_undos {t : St} {n : Nat} {hs : List (List Moji)} (h : SInv E s hs) (hu : Undos E s n t) :
    SInv E t (hs.drop n) ∧ (s.line :: hs)[min n hs.length]? = some t.line := by
  induction hu with
  | none => exact ⟨h, by simp⟩
  | @resize n t t' x rest _ hi hst ih =>
    have h' : SInv E { t with input := rest } (hs.drop n) := ⟨ih.1.inside, ih.1.hist, ⟨ih.1.ed.built, ih.1.ed.log⟩⟩
    unfold step at hst
    rw [hi] at hst
    obtain ⟨s1, h1, hst⟩ := bind_ok.mp hst
    cases hst
    obtain ⟨h2, h3, -⟩ := (resize_wp h').ok h1
    rw [h3]
    exact ⟨h2, ih.2⟩
  | @undo n t t' k rest _ hi hk hst ih =>
    have hx : SInv E t' (hs.drop n).tail ∧ t'.line = (hs.drop n).headD t.line := by
      have hlog := ih.1
      have hexec := (execCmd_wp (E := E) (c := .undo) (s := { t.emit .await with input := rest }) rfl hlog.inside hlog.hist
        (fun _ => hlog.fits))
      rw [step_key hi, hk] at hst
      have hin := hexec.ok hst
      obtain ⟨h1, h2⟩ := execCmd_ed (c := .undo) rfl hst
      obtain ⟨hs', g1, -, rfl, g2⟩ := Ed.undo_inv (L := E.logic) (e := { t.ed with input := rest })
        (hs := hs.drop n) ⟨hlog.ed.built, hlog.ed.log⟩
      obtain ⟨-, h1⟩ := h1 rfl
      have he : t'.ed = Ed.undo E.logic { t.ed with input := rest } := h1.resolve_right (fun h => nomatch h.1)
      refine ⟨⟨hin, ?_, by rw [he]; exact g1⟩, (congrArg Ed.line he).trans g2⟩
      have := Ed.call_histOk E.logic .undo { t.ed with input := rest } hlog.hist.1 hlog.hist.2
      unfold St.histOk
      rw [show t'.histPtr = _ from congrArg Ed.histPtr he]
      exact this
    obtain ⟨h1, h2⟩ := hx
    rw [List.tail_drop] at h1
    refine ⟨h1, ?_⟩
    rw [h2]
    by_cases hn : n < hs.length
    · rw [Nat.min_eq_left (by omega), List.getElem?_cons_succ, List.getElem?_eq_getElem hn,
        List.drop_eq_getElem_cons hn]
      rfl
    · have h3 := ih.2
      rw [Nat.min_eq_right (by omega)] at h3 ⊢
      rw [List.drop_eq_nil_of_le (by omega)]
      exact h3

/-- Undo walks back through the remembered lines, one call of an own command after the other, and ends at
the empty line. -/
theorem C59_undo_partial (hk : LawfulKeys E) (hc : 0 ≤ w.cursor) (h : CalmReachable E w s) :
    ∃ stk, Recalls E w s stk ∧
      (∀ n t, Undos E s n t → (s.units :: stk)[min n stk.length]? = some t.units) ∧
      (s.units :: stk).getLast? = some [] := by
  obtain ⟨hs, h1, h2, h3⟩ := recalls_inv hk hc h
  refine ⟨_, h2, ?_, ?_⟩
  · intro n t ht
    have := (lawful_undos h1 ht).2
    rw [St.units_eq, St.units_eq, ← List.map_cons (f := fun l => List.map Moji.write l),
      List.length_map, List.getElem?_map, this]
    rfl
  · rw [List.getLastD_eq_getLast?] at h3
    rw [St.units_eq, ← List.map_cons (f := fun l => List.map Moji.write l), List.getLast?_map]
    cases hl : (s.line :: hs).getLast? with
    | none => simp at hl
    | some x => rw [hl] at h3; simp at h3; rw [h3]; rfl

/-! ## Replacing -/

/-- `ReplaceAndRepaint` puts the units of the text in the place of those between `pos` and the cursor, and
the cursor behind them. -/
theorem C59_replace {s' : St} {l m r : List Bytes} {t : Bytes} (hat : At s (l ++ m) r)
    (h : replaceAndRepaint E s l.length t = .ok s') : At s' (l ++ unitsOf E.cfg t) r := by
  have he := replaceAndRepaint_ed h
  obtain ⟨lm, mr, ha, h1, rfl⟩ := hat.ed
  rw [List.map_eq_append_iff] at h1
  obtain ⟨ml, mm, rfl, rfl, rfl⟩ := h1
  have hc := ha.cursor
  have hl := ha.line
  have hd : (s.ed.delete (ml.map Moji.write).length (s.ed.cursor - (ml.map Moji.write).length)).line = ml ++ mr := by
    unfold Ed.delete
    rw [List.length_map, hc]
    simp only [Ed.len, hl]
    split
    · rename_i hx
      have : mm = [] := by
        rcases hx with hx | hx
        · simp at hx; exact List.length_eq_zero_iff.mp (by omega)
        · simp at hx; omega
      rw [hl, this]; simp
    · simp only [Int.toNat_natCast, List.append_assoc]
      rw [List.take_left', List.drop_append]
      · simp
        rw [List.drop_eq_nil_of_le (by omega), List.nil_append,
          show ((ml.length : Int) + mm.length).toNat - ml.length = mm.length by omega,
          List.drop_left']
        rfl
      · rfl
  have hnew : s'.ed.At (ml ++ segs E.cfg t) mr := by
    rw [he]
    refine ⟨?_, ?_⟩
    · simp only [Ed.replace, Ed.predict_line, Ed.insert]
      rw [hd]
      simp [Env.logic]
    · simp [Ed.replace, Env.logic]
  refine ⟨?_, ?_⟩
  · rw [St.units_eq, show s'.line = _ from hnew.line]
    simp [unitsOf, segs, Function.comp_def, Moji.norm_write]
  · rw [show s'.cursor = _ from hnew.cursor]
    simp [unitsOf, segs]

section
open Example

/-- An editor whose Escape key runs an own command. -/
def Example.withOwn (p : Own) : Env :=
  let E0 : Env := { cfg := plain, globalKeyMap := none }
  { E0 with globalKeyMap := some fun k => if k = [0x1B] then some (.custom (p.run E0)) else assoc globalTable k }

/-- The line "abcdefgh" is scrolled on a terminal of 10 columns.  The text editor gives back "x": the slice
`Buffer[ViewStart:]` of buffer.go:83 begins behind the end. -/
theorem C59_refuted_scrolled :
    outcome (readLine (withOwn (startEditor fun _ => some [0x78]))
      { termWidth := 10, input := keys ["a", "b", "c", "d", "e", "f", "g", "h", "\x1b"] }) = .inl .bounds := by
  decide +kernel

/-- On a wide terminal the command works, but the undo log still speaks of the old line: the second Undo
panics. -/
theorem C59_refuted_undo :
    look (after (withOwn (startEditor fun _ => some [0x78])) { input := keys ["a", "b", "\x1b"] } 3) =
      .inr ([[0x78]], 1, 0) ∧
    outcome (readLine (withOwn (startEditor fun _ => some [0x78]))
      { input := keys ["a", "b", "\x1b", "\x1a", "\x1a"] }) = .inl .bounds := by
  decide +kernel

/-- The command of example4.go as the rules want it: the cursor goes to the end of the line, and
`ReplaceAndRepaint` replaces everything before it. -/
def Example.lawfulEditor (edit : Bytes → Option Bytes) : Own :=
  .look fun s =>
    match edit s.text with
    | none => .ret .cont
    | some t =>
      .act (.setCursor s.len) fun _ =>
      .act (.replaceAndRepaint 0 t) fun _ =>
      .act .repaintAll fun _ =>
      .ret .cont

theorem tidy_plain (s : St) : Tidy plain s := by
  intro u _ hj
  rcases hj with ⟨h, -⟩ | ⟨h, -⟩ | ⟨h, -⟩ <;> cases h

theorem Example.lawfulEditor_lawful (edit : Bytes → Option Bytes) {E : Env} (hE : E.cfg = plain) :
    Lawful E (lawfulEditor edit) := by
  intro s hin ht
  unfold lawfulEditor
  simp only [Obeys]
  cases edit s.text with
  | none => exact hin
  | some t =>
    refine ⟨trivial, ?_⟩
    rintro s1 r1 h1
    cases h1
    have hl : (0 : Int) ≤ s.len := by show (0 : Int) ≤ ((_ : Nat) : Int); omega
    refine ⟨⟨Int.le_refl _, hl, ⟨hl, Int.le_refl _⟩, by rw [hE]; exact tidy_plain _⟩, ?_⟩
    rintro s2 r2 h2
    obtain ⟨s3, h3, h2⟩ := bind_ok.mp h2
    cases h2
    have hin2 := (replaceAndRepaint_wp (s := { s with cursor := s.len }) (Int.le_refl _) hl (Int.le_refl _)).ok h3
    refine ⟨hin2, ?_⟩
    rintro s4 r4 h4
    obtain ⟨s5, h5, h4⟩ := bind_ok.mp h4
    cases h4
    exact (repaintAll_wp hin2).ok h5

theorem withOwn_lawful {p : Own} (hp : Lawful { cfg := plain, globalKeyMap := none } p) : LawfulKeys (withOwn p) := by
  intro k f h
  by_cases hk : k = [0x1B]
  · subst hk
    have : lookupCommand (withOwn p) [0x1B] = .custom (p.run { cfg := plain, globalKeyMap := none }) := rfl
    rw [this] at h
    cases h
    exact ⟨p, rfl, hp⟩
  · refine absurd ?_ (defaultKeys_builtin plain k f)
    rw [← h]
    have : (withOwn p).globalKeyMap.lookup k = (env plain).globalKeyMap.lookup k := by
      show (if k = [0x1B] then _ else assoc globalTable k) = assoc globalTable k
      rw [if_neg hk]
    unfold lookupCommand
    rw [this]
    rfl

/-- Whatever the text editor does, no key sequence without SwapChar makes a program with this command panic
for another reason than the room on the screen or tabs. -/
example (edit : Bytes → Option Bytes) (input : List Ev) (p : Panic)
    (hsw : ∀ k, .key k ∈ input → lookupCommand (withOwn (lawfulEditor edit)) k ≠ .swapChar)
    (h : readLine (withOwn (lawfulEditor edit)) { input := input } = .error p) :
    (p.kind = .bounds ∧ p.st.narrow plain) ∨ (p.kind = .tabPos ∧ TabBad (withOwn (lawfulEditor edit)) p.st) ∨
      ∃ c, p.crash c :=
  C59_plain_partial (withOwn_lawful (lawfulEditor_lawful edit rfl)) (Int.le_refl _) rfl rfl rfl hsw h

/-- The two sessions above with the lawful command: the Undos bring back the old line, then its parts. -/
example :
    look (after (withOwn (lawfulEditor fun _ => some [0x78]))
      { termWidth := 10, input := keys ["a", "b", "c", "d", "e", "f", "g", "h", "\x1b"] } 9) = .inr ([[0x78]], 1, 0) ∧
    look (after (withOwn (lawfulEditor fun _ => some [0x78])) { input := keys ["a", "b", "\x1b", "\x1a", "\x1a"] } 4) =
      .inr ([[97], [98]], 2, 0) ∧
    look (after (withOwn (lawfulEditor fun _ => some [0x78])) { input := keys ["a", "b", "\x1b", "\x1a", "\x1a"] } 5) =
      .inr ([[97]], 1, 0) := by
  decide +kernel

end
end Readline
