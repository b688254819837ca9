import Verif.Props.C18
import Verif.Proof.VisSession
import Verif.Proof.Waits
import Verif.Proof.Steady
/-!
# C54: while searching, the row shows what is searched for and what was found

Whenever ISEARCH_BACKWARD waits for a key, the row shows, behind the prompt, as much as fits of
`(i-search)[text]:line`, where text and line are those of the search machine `Spec.hunt` (C18) after
the keys typed so far; the rest of the row is empty, the prompt is as it was, and the terminal cursor
stands behind what is shown.  For every state, history, input (also when the Tty fails in the middle,
or the terminal is too narrow to show anything) and however the row looked before.
-/
namespace Readline
open Spec Example

/-- How often a key is awaited. -/
def Spec.waits : List Tok → Nat
  | [] => 0
  | .await :: ts => waits ts + 1
  | _ :: ts => waits ts

/-- What is to be shown during a search. -/
def Spec.Hunt.label (h : Hunt) : Bytes := b "(i-search)[" ++ encodeRunes h.text ++ b "]:" ++ h.shown

/-- The row `r'`, which was `r`, shows the search `h` behind the prompt, which ends at column `top`,
in `vw` columns. -/
structure Spec.ShowsSearch (C : Cfg) (top vw : Int) (h : Hunt) (r r' : Row) : Prop where
  cells : ∃ shown, FitsIn C vw (stringToMoji C h.label) shown ∧
    (∀ x, top ≤ x → r'.cells x = layout C shown top x) ∧ r'.col = top + columns C shown
  prompt : ∀ x, x < top → r'.cells x = r.cells x

variable {E : Env} {lit : Bytes → Row → Row}

theorem waits_append (a c : List Tok) : waits (a ++ c) = waits a + waits c := by
  induction a with
  | nil => simp [waits]
  | cons x a ih => cases x <;> simp [waits, ih] <;> omega

theorem waits_quiet {t : List Tok} (h : ∀ x ∈ t, x.quiet = true) : waits t = 0 := by
  induction t with
  | nil => rfl
  | cons x t ih =>
    have hx := h x (by simp)
    have ht := ih fun y hy => h y (by simp [hy])
    cases x <;> first | exact ht | exact absurd hx (by decide)

/-- The first time a key is awaited, or later. -/
theorem split_await {a t t1 t2 : List Tok} (ha : waits a = 0) (h : a ++ .await :: t = t1 ++ .await :: t2) :
    (t1 = a ∧ t2 = t) ∨ ∃ t1', t1 = a ++ .await :: t1' ∧ t = t1' ++ .await :: t2 := by
  induction a generalizing t1 with
  | nil =>
    cases t1 with
    | nil => injection h with _ h; exact .inl ⟨rfl, h.symm⟩
    | cons x t1 => injection h with h1 h; subst h1; exact .inr ⟨t1, rfl, h⟩
  | cons x a ih =>
    cases t1 with
    | nil => injection h with h1 _; subst h1; simp [waits] at ha
    | cons y t1 =>
      injection h with h1 h
      subst h1
      have ha' : waits a = 0 := by cases x <;> simp_all [waits]
      rcases ih ha' h with ⟨e1, e2⟩ | ⟨t1', e1, e2⟩
      · exact .inl ⟨by rw [e1], e2⟩
      · exact .inr ⟨t1', by rw [e1]; rfl, e2⟩

theorem no_split {t t1 t2 : List Tok} (ht : waits t = 0) (h : t = t1 ++ .await :: t2) : False := by
  rw [h, waits_append] at ht
  simp [waits] at ht

theorem popKey_keysIn {evs rest : List Ev} {k : Bytes} (h : popKey evs = some (.key k, rest)) :
    keysIn evs = k :: keysIn rest := by
  induction evs generalizing rest with
  | nil => cases h
  | cons x evs ih =>
    cases x with
    | resize w =>
      rw [popKey] at h
      cases hp : popKey evs with
      | none => rw [hp] at h; cases h
      | some p =>
        obtain ⟨ev, r⟩ := p
        rw [hp] at h
        injection h with h
        obtain ⟨rfl, rfl⟩ := Prod.mk.inj h
        rw [keysIn, ih hp]
        rfl
    | key k' =>
      rw [popKey_key] at h
      injection h with h
      injection h with h1 h2
      injection h1 with h1
      subst h1 h2
      rfl
    | err y =>
      have : popKey (.err y :: evs) = some (.err y, evs) := by simp [popKey]
      rw [this] at h
      injection h with h
      injection h with h1 h2
      cases h1

/-- The row after drawing and erasing the rest. -/
theorem shown_row (hw : ∀ m : Moji, 0 ≤ m.width E.cfg) {r : Row} {top : Int} (hr : r.col = top) (shown : List Moji) :
    (∀ x, top ≤ x → (Row.run E.cfg lit (r.puts E.cfg shown) [.eraseEol, .cursorOn]).cells x = layout E.cfg shown top x) ∧
    (Row.run E.cfg lit (r.puts E.cfg shown) [.eraseEol, .cursorOn]).col = top + columns E.cfg shown ∧
    ∀ x, x < top → (Row.run E.cfg lit (r.puts E.cfg shown) [.eraseEol, .cursorOn]).cells x = r.cells x := by
  have hW : Wide0 E.cfg shown := fun m _ => hw m
  have h0 := hW.columns
  subst hr
  refine ⟨fun x hx => ?_, ?_, fun x hx => ?_⟩
  · show (if x ≥ (r.puts E.cfg shown).col then none else (r.puts E.cfg shown).cells x) = _
    rw [puts_col, puts_cells hW]
    by_cases hc : x ≥ r.col + columns E.cfg shown
    · rw [if_pos hc, layout_outside hW (.inr hc)]
    · rw [if_neg hc, if_pos (by omega)]
  · exact puts_col r shown
  · show (if x ≥ (r.puts E.cfg shown).col then none else (r.puts E.cfg shown).cells x) = _
    rw [puts_col, puts_cells hW, if_neg (by omega), if_neg (by omega)]

theorem label_rel {it : ISt} {h : Hunt} (hr : HRel E it h) : isearchDraw it = h.label := by
  have c1 : b "(i-search)[" = [0x28, 0x69, 0x2D, 0x73, 0x65, 0x61, 0x72, 0x63, 0x68, 0x29, 0x5B] := by decide +kernel
  have c2 : b "]:" = [0x5D, 0x3A] := by decide +kernel
  unfold isearchDraw Hunt.label
  rw [hr.text, hr.shown, c1, c2]

theorem Wp.elim {Q : Panic → Prop} {x : M α} {P : α → Prop} {a : α} (h : Wp Q x P) (e : x = .ok a) : P a := by
  rw [e] at h; exact h

/-- The rounds of a search. -/
def Rounds (E : Env) (lit : Bytes → Row → Row) (h : Hunt) (s q : St) : Prop :=
  ∃ t, q.out = s.out ++ t ∧ 0 < waits t ∧ (noResize s.input).length ≤ (noResize q.input).length + waits t ∧
    ∀ t1 t2, t = t1 ++ .await :: t2 → ∀ r : Row, r.col = s.topColumn →
      ShowsSearch E.cfg s.topColumn s.viewWidth
        (((keysIn s.input).take (waits t1)).foldl (Hunt.key E) h) r (Row.run E.cfg lit r t1)

theorem isearchLoop_rows (hw : ∀ m : Moji, 0 ≤ m.width E.cfg) (n : Nat) {it : ISt} {h : Hunt} {s : St}
    {p : St × Result} (hl : isearchLoop E n it s = .ok p) (hr : HRel E it h) :
    Rounds E lit h s p.1 := by
  induction n generalizing it h s with
  | zero => cases hl
  | succ n ih =>
    unfold isearchLoop at hl
    obtain ⟨s1, h1, hl⟩ := bind_ok.mp hl
    obtain ⟨shown, hfit, ⟨o, e1⟩, d, ed, hd⟩ := drawLoop_draws (lit := lit) h1
    obtain ⟨⟨d', ed', hq⟩, -, -⟩ := (drawLoop_q _ _ (Quiet.refl s)).elim h1
    have hdd : d' = d := List.append_cancel_left (ed'.symm.trans ed)
    subst hdd
    have hA : waits (d' ++ [.eraseEol, .cursorOn]) = 0 := by rw [waits_append, waits_quiet hq]; rfl
    -- what the row shows the first time
    have first : ∀ r : Row, r.col = s.topColumn → ShowsSearch E.cfg s.topColumn s.viewWidth h r
        (Row.run E.cfg lit r (d' ++ [.eraseEol, .cursorOn])) := by
      intro r hc
      rw [run_append, hd]
      obtain ⟨a1, a2, a3⟩ := shown_row (E := E) (lit := lit) hw hc shown
      rw [Int.sub_zero, label_rel hr] at hfit
      exact ⟨⟨shown, hfit, a1, a2⟩, a3⟩
    cases hg : getKey ((eraseline s1).emit .cursorOn) with
    | mk k s2 =>
    obtain ⟨rest, e2⟩ := getKey_state hg
    dsimp only at hl
    rw [hg] at hl
    have hin : ((eraseline s1).emit .cursorOn).input = s.input := by
      show s1.input = s.input
      rw [e1]
    have o2 : s2.out = s.out ++ ((d' ++ [.eraseEol, .cursorOn]) ++ [.await]) := by
      rw [e2]
      show s1.out ++ [.eraseEol] ++ [.cursorOn] ++ [.await] = _
      rw [ed]; simp
    have hlen : (noResize s.input).length ≤ (noResize s2.input).length + 1 := by
      rw [← hin]
      unfold getKey at hg
      dsimp only at hg
      have hin' : ((eraseline s1).emit .cursorOn |>.emit .await).input = ((eraseline s1).emit .cursorOn).input := rfl
      rw [hin'] at hg
      cases hp : popKey ((eraseline s1).emit .cursorOn).input with
      | none =>
        rw [hp] at hg
        injection hg with _ hg
        rw [← hg]
        exact Nat.le_succ _
      | some q =>
        obtain ⟨ev, R⟩ := q
        obtain ⟨x1, x2, x3⟩ := popKey_noResize hp
        rw [hp] at hg
        cases ev <;> (injection hg with _ hg; rw [← hg, x1]; exact Nat.le_refl _)
    -- the last round
    have last : ∀ {q : St} {T : List Tok}, q.out = s2.out ++ T → waits T = 0 → q.input = s2.input → Rounds E lit h s q := by
      intro q T hq hT hqi
      have hwt : waits ((d' ++ [.eraseEol, .cursorOn]) ++ .await :: T) = 1 := by
        rw [waits_append, hA]; simp [waits, hT]
      refine ⟨(d' ++ [.eraseEol, .cursorOn]) ++ .await :: T, by rw [hq, o2]; simp, by omega, by rw [hwt, hqi]; exact hlen, fun t1 t2 ht r hc => ?_⟩
      rcases split_await hA ht with ⟨rfl, -⟩ | ⟨t1', -, e⟩
      · rw [hA]; exact first r hc
      · exact (no_split hT e).elim
    cases k with
    | none =>
      have hp : p.1 = s2 := by rw [← pure_ok.mp hl]
      rw [hp]
      exact last (T := []) (by simp) rfl rfl
    | some key =>
    have hkeys : keysIn s.input = key :: keysIn s2.input := by
      unfold getKey at hg
      dsimp only at hg
      have hin' : ((eraseline s1).emit .cursorOn |>.emit .await).input = s.input := hin
      rw [hin'] at hg
      cases hp : popKey s.input with
      | none => rw [hp] at hg; cases hg
      | some q =>
        obtain ⟨ev, R⟩ := q
        rw [hp] at hg
        cases ev with
        | key k' =>
          injection hg with hg1 hg2
          injection hg1 with hg1
          subst hg1 hg2
          exact popKey_keysIn hp
        | err y => cases hg
        | resize w => cases hg
    -- a round that goes on
    have again : ∀ it', HRel E it' (h.key E key) → isearchLoop E n it' (gotoHead (s2.emit .cursorOff)) = .ok p → Rounds E lit h s p.1 := by
      intro it' hr' hl'
      obtain ⟨t', o', _, hn', ht'⟩ := ih hl' hr'
      have ot : (gotoHead (s2.emit .cursorOff)).out = s2.out ++ [.cursorOff, .gotoCol (s.topColumn + 1)] := by
        show s2.out ++ [.cursorOff] ++ [.gotoCol (s2.topColumn + 1)] = _
        rw [e2]
        show s1.out ++ _ ++ _ ++ _ ++ _ ++ [.gotoCol (s1.topColumn + 1)] = s1.out ++ _ ++ _ ++ _ ++ _
        rw [e1]; simp
      have etop : (gotoHead (s2.emit .cursorOff)).topColumn = s.topColumn := by
        show s2.topColumn = _
        rw [e2]; show s1.topColumn = _; rw [e1]
      have evw : (gotoHead (s2.emit .cursorOff)).viewWidth = s.viewWidth := by
        show s2.viewWidth = _
        rw [e2]; show s1.viewWidth = _; rw [e1]; rfl
      have ein : (gotoHead (s2.emit .cursorOff)).input = s2.input := rfl
      rw [etop, evw, ein] at ht'
      rw [ein] at hn'
      have hwt : waits ((d' ++ [.eraseEol, .cursorOn]) ++ .await :: ([.cursorOff, .gotoCol (s.topColumn + 1)] ++ t')) =
          waits t' + 1 := by
        rw [waits_append, hA]; simp [waits]
      refine ⟨(d' ++ [.eraseEol, .cursorOn]) ++ .await :: ([.cursorOff, .gotoCol (s.topColumn + 1)] ++ t'),
        by rw [o', ot, o2]; simp, by omega, by omega, fun t1 t2 ht r hc => ?_⟩
      rcases split_await hA ht with ⟨rfl, -⟩ | ⟨t1', e, e'⟩
      · rw [hA]; exact first r hc
      · obtain ⟨t1'', rfl, e''⟩ : ∃ t1'', t1' = [.cursorOff, .gotoCol (s.topColumn + 1)] ++ t1'' ∧ t' = t1'' ++ .await :: t2 := by
          cases t1' with
          | nil => cases e'
          | cons x t1' =>
            injection e' with x1 e'
            cases t1' with
            | nil => cases e'
            | cons y t1' =>
              injection e' with x2 e'
              exact ⟨t1', by rw [← x1, ← x2]; rfl, e'⟩
        have hwt : waits t1 = waits t1'' + 1 := by
          rw [e, waits_append, hA]; simp [waits]
        rw [hwt, hkeys, List.take_succ_cons, List.foldl_cons, e, run_append]
        show ShowsSearch _ _ _ _ _ (Row.run E.cfg lit (Row.run E.cfg lit (Row.run E.cfg lit r _)
          [.await, .cursorOff, .gotoCol (s.topColumn + 1)]) t1'')
        have h3 := ht' t1'' t2 e'' (Row.run E.cfg lit (Row.run E.cfg lit r (d' ++ [.eraseEol, .cursorOn]))
          [.await, .cursorOff, .gotoCol (s.topColumn + 1)]) (by show s.topColumn + 1 - 1 = _; omega)
        refine ⟨h3.cells, fun x hx => ?_⟩
        rw [h3.prompt x hx]
        exact (first r hc).prompt x hx
    have c8 : b "\x08" = [0x08] := by decide +kernel
    have c7f : b "\x7f" = [0x7F] := by decide +kernel
    have c12 : b "\x12" = [0x12] := by decide +kernel
    have c13 : b "\x13" = [0x13] := by decide +kernel
    have hkey : h.key E key = (if key = [0x08] ∨ key = [0x7F] then Hunt.newest E { h with text := h.text.dropLast }
      else if key = [0x12] then h.other E (olderThan E.history.length h.pos)
      else if key = [0x13] then h.other E (newerThan E.history.length h.pos)
      else if isCtl (decodeRune key).1 then h
      else Hunt.newest E { h with text := h.text ++ [(decodeRune key).1] }) := by
      unfold Hunt.key; rw [c8, c7f, c12, c13]
    rw [hkey] at again
    dsimp only at hl
    split at hl
    · rename_i hc
      rw [if_pos hc] at again
      refine again _ ?_ hl
      rw [isearchUpdate_ed]
      exact newest_rel (hr.setText (by rw [hr.text, chopLast_encode hr.scalar])
        (fun r hm => hr.scalar r (List.dropLast_subset _ hm)))
    · rename_i hc
      rw [if_neg hc] at again
      split at hl
      · obtain ⟨s4, h4, hl⟩ := bind_ok.mp hl
        have hp : p.1 = s4 := by rw [← pure_ok.mp hl]
        rw [hp]
        obtain ⟨⟨T, eT, hT⟩, iT, -⟩ := (replaceAndRepaint_q (Quiet.refl _) _ _).elim h4
        refine last (T := [.cursorOff, .gotoCol (s2.topColumn + 1)] ++ T) ?_ ?_ iT
        · rw [eT]
          show s2.out ++ [.cursorOff] ++ [.gotoCol (s2.topColumn + 1)] ++ T = _
          simp
        · rw [waits_append, waits_quiet hT]; rfl
      · split at hl
        · obtain ⟨nw, h4, hl⟩ := bind_ok.mp hl
          obtain ⟨s5, h5, hl⟩ := bind_ok.mp hl
          obtain ⟨s6, h6, hl⟩ := bind_ok.mp hl
          have hp : p.1 = s6 := by rw [← pure_ok.mp hl]
          rw [hp]
          obtain ⟨⟨T, eT, hT⟩, iT, -⟩ := (puts_q (Quiet.refl _) _ _).elim h5
          obtain ⟨⟨T', eT', hT'⟩, iT', -⟩ := (puts_q (Quiet.refl _) _ _).elim h6
          refine last (T := [.cursorOff, .gotoCol (s2.topColumn + 1)] ++ T ++ [.eraseEol, .gotoCol (s5.topColumn + 1)] ++ T') ?_ ?_ (iT'.trans iT)
          · rw [eT']
            show s5.out ++ [.eraseEol] ++ [.gotoCol (s5.topColumn + 1)] ++ T' = _
            rw [eT]
            show s2.out ++ [.cursorOff] ++ [.gotoCol (s2.topColumn + 1)] ++ T ++ _ ++ _ ++ _ = _
            simp
          · rw [waits_append, waits_append, waits_append, waits_quiet hT, waits_quiet hT']; rfl
        · split at hl
          · rename_i hc4
            rw [if_pos hc4] at again
            obtain ⟨it', h4, hl⟩ := bind_ok.mp hl
            refine again _ ?_ hl
            rw [isearchPrev_ed h4]
            exact prev_rel hr
          · rename_i hc4
            rw [if_neg hc4] at again
            split at hl
            · rename_i hc5
              rw [if_pos hc5] at again
              obtain ⟨it', h4, hl⟩ := bind_ok.mp hl
              refine again _ ?_ hl
              rw [isearchNext_ed h4]
              exact next_rel hr
            · rename_i hc5
              rw [if_neg hc5] at again
              split at hl
              · rename_i hc6
                rw [if_pos ((isControlRune_iff _).mp hc6)] at again
                exact again _ hr hl
              · rename_i hc6
                rw [if_neg (fun x => hc6 ((isControlRune_iff _).mpr x))] at again
                refine again _ ?_ hl
                rw [isearchUpdate_ed]
                refine newest_rel (hr.setText (rs := h.text ++ [(decodeRune key).1]) ?_ ?_)
                · rw [hr.text, encodeRunes_append]
                  simp [encodeRunes_cons, encodeRunes_nil]
                · intro r hm
                  rcases List.mem_append.mp hm with hm | hm
                  · exact hr.scalar r hm
                  · rw [List.mem_singleton.mp hm]; exact decode_isScalar key

/-- Each time ISEARCH_BACKWARD waits for a key.  It waits before each key it reads. -/
theorem C54 (hw : ∀ m : Moji, 0 ≤ m.width E.cfg) {s : St} {p : St × Result}
    (h : Cmd.call E .isearchBackward s = .ok p) :
    ∃ t, p.1.out = s.out ++ t ∧ 0 < waits t ∧
      (noResize s.input).length ≤ (noResize p.1.input).length + waits t ∧
      ∀ t1 t2, t = t1 ++ .await :: t2 → ∀ r : Row,
        ShowsSearch E.cfg s.topColumn s.viewWidth (hunt E ((keysIn s.input).take (waits t1))) r
          (Row.run E.cfg lit r t1) := by
  obtain ⟨t, o, h0, hn, ht⟩ := isearchLoop_rows (lit := lit) hw _ (s := gotoHead s) h (hunt_start E)
  refine ⟨.gotoCol (s.topColumn + 1) :: t, ?_, h0, hn, fun t1 t2 e r => ?_⟩
  · rw [o]
    show s.out ++ [_] ++ t = _
    simp
  · cases t1 with
    | nil => cases e
    | cons x t1 =>
      injection e with e1 e
      subst e1
      have h3 := ht t1 t2 e (Row.receive E.cfg lit r (.gotoCol (s.topColumn + 1))) (by
        show s.topColumn + 1 - 1 = s.topColumn; omega)
      exact ⟨h3.cells, h3.prompt⟩

/-! ## A case -/

/-- A history of two lines; Ctrl-R is pressed in a session, then `g`, Ctrl-R again and Enter. -/
def Example.searchEnv : Env := { env plain with history := [b "git status", b "go build"] }

def Example.searching : World where
  termWidth := 40
  input := keys ["x", "\x12", "g", "\x12", "\r", "\r"]

/-- The command waits three times: nothing typed, `go build` found, `git status` found. -/
example : (hunt searchEnv [] |>.label, hunt searchEnv [b "g"] |>.label, hunt searchEnv [b "g", b "\x12"] |>.label) =
    (b "(i-search)[]:", b "(i-search)[g]:go build", b "(i-search)[g]:git status") := by decide +kernel

/-- It returns in a state reached by the session. -/
example : ∃ s p, Reachable searchEnv searching s ∧
    Cmd.call searchEnv .isearchBackward { s with input := keys ["g", "\x12", "\r", "\r"] } = .ok p ∧
    p.1.input = keys ["\r"] := by
  obtain ⟨s, h1, h2⟩ := gets_ok (E := searchEnv) (w := searching) (n := 1)
    (p := fun s => match Cmd.call searchEnv .isearchBackward { s with input := keys ["g", "\x12", "\r", "\r"] } with
      | .ok p => decide (p.1.input = keys ["\r"])
      | .error _ => false) (by decide +kernel)
  split at h2
  · rename_i p hp
    exact ⟨s, p, h1, hp, of_decide_eq_true h2⟩
  · cases h2

end Readline
