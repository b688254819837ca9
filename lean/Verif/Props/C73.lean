import Verif.Spec.Wordstar
import Verif.Model.Wordstar
import Verif.Props.C11
import Verif.Props.C12
import Verif.Props.C20
import Verif.Props.C62
/-!
# C73: the keys of examples/example3.go

The program binds ten control keys and reads lines for ever.

`C73_keys`: what each of the ten keys does in every session.  `C73_others`: every other key does what it does by
default.  `C73_ends`: the program ends only by Ctrl-C or because the Tty fails, never by Ctrl-D, which moves the
cursor.  `C73_partial`: if it returns, its history is the list of lines that were entered, by any of the ways of C62,
before Ctrl-C.  `C73_returns_partial`: it does not panic on plain texts without Ctrl-T.  `C73_refuted`: Ctrl-T at the end
of a line and Undo after it panic here as well (C01).
-/
namespace Readline
open Spec

variable {E : Env} {w : World} {s s' : St}

/-- The ten keys. -/
def tenKeys : List Bytes := [[0x13], [0x04], [0x18], [0x05], [0x01], [0x06], [0x07], [0x02], [0x10], [0x0E]]

theorem wordstar_lookup {k : Bytes} (hk : k ∉ tenKeys) :
    lookupCommand (wordstar E) k = match assoc globalTable k with | some f => f | none => .selfInsert k := by
  have h : KeyMap.lookup wordstarKeys k = none := by
    simp only [tenKeys, List.mem_cons, List.not_mem_nil, not_or, or_false] at hk
    simp [wordstarKeys, disableKeys, KeyMap.bindKey, KeyMap.lookup, hk]
  show (match KeyMap.lookup wordstarKeys k with | some f => f | none => _) = _
  rw [h]
  rfl

theorem global_builtin {k : Bytes} {f : Cmd} (h : assoc globalTable k = some f) :
    f.builtin = true ∧ (∀ K, f ≠ .completion K) ∧ (f = .swapChar → k = [0x14]) ∧ (f = .deleteOrAbort → k = [0x04]) ∧
    (f = .interrupt → k = [0x03]) := by
  have h1 : ∀ p ∈ globalTable, p.2.builtin = true ∧ (match p.2 with
    | .completion _ => false
    | .swapChar => decide (p.1 = [0x14])
    | .deleteOrAbort => decide (p.1 = [0x04])
    | .interrupt => decide (p.1 = [0x03])
    | _ => true) = true := by decide
  unfold assoc at h
  cases hp : globalTable.find? (fun p => p.1 == k) with
  | none => rw [hp] at h; cases h
  | some p =>
    rw [hp] at h
    obtain ⟨a, b⟩ := p
    injection h with h
    dsimp only at h
    subst h
    obtain ⟨g1, g2⟩ := h1 _ (List.mem_of_find?_eq_some hp)
    have hk : a = k := by simpa using List.find?_some hp
    subst hk
    dsimp only at g1 g2
    refine ⟨g1, ?_, ?_, ?_, ?_⟩
    · intro K hK; rw [hK] at g2; cases g2
    · intro hK; rw [hK] at g2; simpa using g2
    · intro hK; rw [hK] at g2; simpa using g2
    · intro hK; rw [hK] at g2; simpa using g2

theorem wordstar_command (k : Bytes) : (lookupCommand (wordstar E) k).builtin = true ∧
    (∀ K, lookupCommand (wordstar E) k ≠ .completion K) ∧ (lookupCommand (wordstar E) k = .swapChar → k = [0x14]) ∧
    lookupCommand (wordstar E) k ≠ .deleteOrAbort ∧ (lookupCommand (wordstar E) k = .interrupt → k = [0x03]) := by
  by_cases hk : k ∈ tenKeys
  · simp only [tenKeys, List.mem_cons, List.not_mem_nil, or_false] at hk
    rcases hk with rfl | rfl | rfl | rfl | rfl | rfl | rfl | rfl | rfl | rfl <;>
      (refine ⟨rfl, fun _ h => ?_, fun h => ?_, fun h => ?_, fun h => ?_⟩ <;> cases h)
  · rw [wordstar_lookup hk]
    split
    · rename_i f hf
      obtain ⟨g1, g2, g3, g4, g5⟩ := global_builtin hf
      exact ⟨g1, g2, g3, fun h => hk (by rw [g4 h]; decide), g5⟩
    · exact ⟨rfl, (fun _ h => nomatch h), (fun h => nomatch h), (fun h => nomatch h), (fun h => nomatch h)⟩

theorem wordstar_builtin : BuiltinKeys (wordstar E) := by
  intro k f h
  have := (wordstar_command (E := E) k).1
  rw [h] at this
  cases this

/-- Every other key does what it does in an editor without bindings of its own. -/
theorem C73_others {k : Bytes} (hk : k ∉ [[0x13], [0x04], [0x18], [0x05], [0x01], [0x06], [0x07], [0x02], [0x10], [0x0E]]) :
    lookupCommand (wordstar E) k = lookupCommand { wordstar E with keyMap := none } k := wordstar_lookup hk

theorem sameText_input {rest : List Ev} (h : SameText { s with input := rest } s') :
    SameText s { s' with input := s.input } :=
  ⟨h.units, h.undoes, h.clip, h.pending, h.histPtr, h.modHist, rfl⟩

theorem typed_at {c : Char} {rc : Result} {l r : List Bytes} (h : Performs E (.selfInsert (utf8 [c])) s s' rc)
    (hat : At s l r) (hj : ¬ Joins E.cfg c.toNat) : At s' (l ++ unitsOf E.cfg (s.pending ++ utf8 [c])) r := by
  obtain ⟨i, x, ho, -⟩ := h.leads rfl
  obtain ⟨ml, mr, ha, rfl, rfl⟩ := (hat.but i x).ed
  have h1 := ho.at (type_char (L := E.logic) ha (.inr hj))
  rw [List.map_append, segs_units] at h1
  exact h1

theorem notJoins {C : Cfg} {n : Nat} (h : n < 0x80) (hv : C.varSel n = false) : ¬ Joins C n := by
  unfold Joins
  rw [hv]
  simp
  omega

/-- What the ten keys do. -/
theorem C73_keys (hr : Reachable (wordstar E) w s) {k : UInt8} {rest : List Ev} {l r : List Bytes}
    (hk : k ∈ [0x13, 0x04, 0x18, 0x05, 0x01, 0x06, 0x07, 0x02, 0x10, 0x0E]) (hv : E.cfg.varSel k.toNat = false)
    (hi : s.input = .key [k] :: rest) (hat : At s l r) {o : Option RLRes} (h : step (wordstar E) s = .ok (s', o)) :
    o = none ∧ s'.input = rest ∧ Wordstar (wordstar E) s s' l r k := by
  have hb : BuiltinKeys (wordstar E) := wordstar_builtin
  have hcur := hat.cursor
  have hlen : (s.units.length : Int) = l.length + r.length := by rw [hat.units]; simp
  have goes_on : ∀ {c : Cmd}, lookupCommand (wordstar E) [k] = c → c.builtin = true →
      (Ed.call (wordstar E).logic c { s.ed with input := rest }).2 = .cont →
      o = none ∧ Performs (wordstar E) c s s' .cont ∧ s'.input = (Ed.call (wordstar E).logic c { s.ed with input := rest }).1.input := by
    intro c hc hbc hx
    obtain ⟨f1, f2⟩ := (step_key_ed hi hc hbc h).1 hx
    have f1 : o = none := f1
    subst f1
    refine ⟨rfl, .key hi hc h, ?_⟩
    rcases f2 with f | ⟨-, f⟩
    · exact (Obs.of_ed f).input
    · exact (Obs.of_predict f).input
  have h0 := C16_range hb hr
  simp only [List.mem_cons, List.not_mem_nil, or_false] at hk
  rcases hk with rfl | rfl | rfl | rfl | rfl | rfl | rfl | rfl | rfl | rfl
  · have hc : lookupCommand (wordstar E) [0x13] = .backwardChar := rfl
    obtain ⟨h1, h2, h3⟩ := C09_key hi (by rw [hc]; simp) (by rw [hc]; simp) h
    refine ⟨h3, h1.input, .left ?_ (sameText_input h1)⟩
    rw [hc] at h2
    generalize hq : s'.cursor = q at h2
    cases h2 with
    | left h => rw [hcur] at h ⊢; omega
    | left0 h => rw [hcur] at h ⊢; omega
  · have hc : lookupCommand (wordstar E) [0x04] = .forwardChar := rfl
    obtain ⟨h1, h2, h3⟩ := C09_key hi (by rw [hc]; simp)
      (fun _ _ => by unfold St.suffixList; rw [(C20_off hb rfl hr).1]; rfl) h
    refine ⟨h3, h1.input, .right ?_ (sameText_input h1)⟩
    rw [hc] at h2
    generalize hq : s'.cursor = q at h2
    cases h2 with
    | right h => rw [hlen, hcur] at h; rw [hcur]; omega
    | right_end h => rw [hlen, hcur] at h; rw [hcur]; omega
  · obtain ⟨h1, h2, h3⟩ := goes_on (c := .nextHistory) rfl rfl rfl
    obtain ⟨g1, -, g2, g3⟩ := C16 h2 (p := down (wordstar E).history.length s.histPtr) rfl h0.1 h0.2
    refine ⟨h1, h3.trans (Ed.call_same_input _ (by simp) (by simp) _), .down ?_ ?_ ?_⟩
    · rw [g1]; unfold down; split <;> omega
    · intro hx
      obtain ⟨a, b, -⟩ := g2 (g1.symm.trans hx)
      exact ⟨a.trans hat.units, b.trans hat.cursor⟩
    · intro hx
      rw [g1] at hx ⊢
      exact g3 hx
  · obtain ⟨h1, h2, h3⟩ := goes_on (c := .previousHistory) rfl rfl rfl
    obtain ⟨g1, -, g2, g3⟩ := C16 h2 (p := up (wordstar E).history.length false s.histPtr) rfl h0.1 h0.2
    refine ⟨h1, h3.trans (Ed.call_same_input _ (by simp) (by simp) _), .up ?_ ?_ ?_⟩
    · rw [g1]; unfold up; split
      · omega
      · split
        · omega
        · simp; omega
    · intro hx
      obtain ⟨a, b, -⟩ := g2 (g1.symm.trans hx)
      exact ⟨a.trans hat.units, b.trans hat.cursor⟩
    · intro hx
      rw [g1] at hx ⊢
      exact g3 hx
  · obtain ⟨h1, h2, -⟩ := goes_on (c := .backwardWord) rfl rfl rfl
    obtain ⟨a, v, z, g1, g2⟩ := C14_backward hb hr hat h2
    have g3 := (C09_word_key hi (by show Cmd.backwardWord ∈ _; simp) h).1
    exact ⟨h1, g3.input, .wordLeft g1 g2 (sameText_input g3)⟩
  · obtain ⟨h1, h2, -⟩ := goes_on (c := .forwardWord) rfl rfl rfl
    obtain ⟨a, v, z, g1, g2⟩ := C14_forward hb hr hat h2
    have g3 := (C09_word_key hi (by show Cmd.forwardWord ∈ _; simp) h).1
    exact ⟨h1, g3.input, .wordRight g1 g2 (sameText_input g3)⟩
  · obtain ⟨h1, h2, h3⟩ := goes_on (c := .deleteChar) rfl rfl rfl
    exact ⟨h1, h3.trans (Ed.call_same_input _ (by simp) (by simp) _), .delete (C11 h2 hat rfl) (C11_clip h2 hat rfl).1⟩
  · obtain ⟨h1, h2, h3⟩ := goes_on (c := .selfInsert (utf8 [Char.ofNat 2])) rfl rfl rfl
    exact ⟨h1, h3.trans (Ed.call_same_input _ (by simp) (by simp) _),
      .insert (.inl rfl) (typed_at h2 hat (notJoins (by decide) hv))⟩
  · obtain ⟨h1, h2, h3⟩ := goes_on (c := .selfInsert (utf8 [Char.ofNat 16])) rfl rfl rfl
    exact ⟨h1, h3.trans (Ed.call_same_input _ (by simp) (by simp) _),
      .insert (.inr (.inl rfl)) (typed_at h2 hat (notJoins (by decide) hv))⟩
  · obtain ⟨h1, h2, h3⟩ := goes_on (c := .selfInsert (utf8 [Char.ofNat 14])) rfl rfl rfl
    exact ⟨h1, h3.trans (Ed.call_same_input _ (by simp) (by simp) _),
      .insert (.inr (.inr rfl)) (typed_at h2 hat (notJoins (by decide) hv))⟩

/-! ## The program -/

/-- The program ends only by Ctrl-C or because there is nothing to read any more. -/
theorem C73_ends {keep : Bytes → Bool} {n : Nat} {c : Container} {x : Container × RLErr × World}
    (h : readLines (wordstar E) keep n c w = .ok x) :
    (x.2.1 = .ctrlC ∧ .key [0x03] ∈ w.input) ∨ ∃ e, x.2.1 = .tty e := by
  induction n generalizing c w with
  | zero => cases h
  | succ n ih =>
    rw [readLines] at h
    obtain ⟨⟨s, r⟩, hr, h⟩ := bind_ok.mp h
    have hb : BuiltinKeys { wordstar E with history := c.buffer } := wordstar_builtin (E := E)
    obtain ⟨t, ht, hst⟩ := readLine_reachable hr
    have hle := reachable_input hb ht
    have hend := step_ends hb hst
    have h : (match r.err with
        | .nil => readLines (wordstar E) keep n (if keep r.text then c.add r.text else c) s.world
        | err => pure (c, err, s.world)) = .ok x := h
    dsimp only at hend
    cases he : r.err with
    | nil =>
      rw [he] at h
      obtain ⟨-, y, -, -, -, hsub⟩ := readLine_takes hb hr he
      rcases ih h with ⟨h1, h2⟩ | h1
      · exact .inl ⟨h1, hsub.subset (List.mem_cons_of_mem _ h2)⟩
      · exact .inr h1
    | ctrlC =>
      rw [he] at h; cases h
      refine .inl ⟨rfl, ?_⟩
      cases hend with
      | @interrupt k rest hi hk =>
        have h3 : k = [0x03] := (wordstar_command (E := E) k).2.2.2.2 hk
        subst h3
        rw [hi] at hle
        exact hle.subset (by simp)
      | _ => cases he
    | eof =>
      cases hend with
      | @eof k rest hi hk => exact absurd hk (wordstar_command (E := E) k).2.2.2.1
      | _ => cases he
    | tty e => rw [he] at h; cases h; exact .inr ⟨e, rfl⟩

theorem readLine_interrupt {d : Bytes} {rest : List Ev}
    (hdd : lookupCommand E d = .interrupt) (hi : w.input = .key d :: rest) {p : St × RLRes}
    (h : readLine E w = .ok p) : p.2.err = .ctrlC ∧ p.1.input = rest := by
  unfold readLine at h
  obtain ⟨s, hs, h⟩ := bind_ok.mp h
  have hinp : s.input = .key d :: rest := (startSt_input hs).trans hi
  obtain ⟨q, hq, h⟩ := loop_steps h
  obtain ⟨ho, he⟩ := (step_key_ed hinp hdd rfl hq).2 (fun h => nomatch h)
  rcases h with ⟨r, hr, rfl⟩ | ⟨m, -, h0, -⟩
  · rw [ho] at hr
    injection hr with hr
    refine ⟨?_, congrArg Ed.input he⟩
    show r.err = _
    rw [← hr]
    rfl
  · rw [h0] at ho; cases ho

/-- If the program returns, its history is the list of the lines entered before Ctrl-C. -/
theorem C73_partial {h' : List Bytes} {rest : List Ev} (hcur : 0 ≤ w.cursor)
    (hsc : Script (wordstar E) (fun _ => true) [] w.input h' (.key [0x03] :: rest))
    {x : Container × RLErr × World} (h : program (wordstar E) (fun _ => true) w = .ok x) :
    x.1.buffer = h' ∧ x.2.1 = .ctrlC ∧ x.2.2.input = rest :=
  script_runs wordstar_builtin rfl hsc (fun _ h => nomatch h) (by simp)
    (fun {l _ _} h1 h2 => readLine_interrupt (E := { wordstar E with history := l }) rfl h1 h2) hcur rfl h

/-- With plain texts, and without Ctrl-T, the program does not panic. -/
theorem C73_returns_partial {keep : Bytes → Bool} (hcl : E.clipSet = fun _ t => some t)
    (ht : ∀ t, w.clip = some t ∨ FromKey (wordstar E) w t → Over (Plain E.cfg) t)
    (h22 : Plain E.cfg 0x22) (hs : .key [0x14] ∉ w.input)
    (hw : 7 < w.termWidth) (hr : ∀ n, .resize n ∈ w.input → 7 < n) (hcur : 0 ≤ w.cursor) :
    ∃ x, program (wordstar E) keep w = .ok x ∧ ((x.2.1 = .ctrlC ∧ .key [0x03] ∈ w.input) ∨ ∃ e, x.2.1 = .tty e) ∧
      ∀ t ∈ x.1.buffer, Over (Plain E.cfg) t := by
  obtain ⟨x, h1, h2⟩ := C62_goes_on_partial (E := wordstar E) (keep := keep) (c := {}) wordstar_builtin
    (fun q => (wordstar_command q).2.1) rfl hcl rfl (fun t h => by
      rcases h with h | h | h
      · rw [h]; exact over_nil
      · cases h
      · exact ht t h) h22 (fun k hk hc => hs ((wordstar_command k).2.2.1 hc ▸ hk)) hw hr hcur (Nat.lt_succ_self _)
  exact ⟨x, h1, C73_ends h1, h2⟩

section
open Example

/-- Ctrl-S and Ctrl-D move, Ctrl-G deletes, Ctrl-E and Ctrl-X fetch lines, Ctrl-P inserts itself, Ctrl-D on the empty line
does nothing. -/
example : texts (program (wordstar (env plain)) (fun _ => true)
    { input := keys ["a", "b", "c", "\x13", "\x13", "\x07", "\r", "\x05", "\x13", "x", "\x04", "y", "\r", "\x05", "\x05", "\x18", "z", "\r",
        "\x04", "\x10", "\r", "\x03"] }) =
    some (["ac", "axcy", "axcyz", "\x10"].map b, .ctrlC) := by decide +kernel

/-- The states of such a session meet the hypotheses of `C73_keys`. -/
example : look (after (wordstar (env plain)) { input := keys ["a", " ", "b", "c", "\x01", "\x01", "\x06"] } 6) =
    .inr ([b "a", b " ", b "b", b "c"], 0, 0) ∧
    look (after (wordstar (env plain)) { input := keys ["a", " ", "b", "c", "\x01", "\x01", "\x06"] } 7) =
    .inr ([b "a", b " ", b "b", b "c"], 2, 0) := by decide +kernel

/-- Inside a search the keys keep the meaning they always have there: Ctrl-G gives the search up, so nothing is deleted. -/
example : look (after (wordstar (env plain)) { input := keys ["a", "b", "\x13", "\x12", "a", "\x07", "z"] } 5) =
    .inr ([b "a", b "z", b "b"], 2, 0) := by decide +kernel

/-- A script that meets the hypotheses of `C73_partial`. -/
example : Script (wordstar (env plain)) (fun _ => true) [] ([key 'a', key 'b'] ++ .key [0x0D] ::
    (([key 'x'] ++ [.key [0x05]]) ++ .key [0x0D] :: [.key [0x03]])) (["ab", "ab"].map fun s => utf8 s.toList) [.key [0x03]] := by
  have fits : ∀ ks, Fits (wordstar (env plain)).cfg .nothing ks := fun ks => (fits_plain rfl ks).1
  have types : ∀ {evs ks} (c : Char), c ∈ ['a', 'b', 'x'] → Types (wordstar (env plain)) evs ks →
      Types (wordstar (env plain)) (key c :: evs) ([c] :: ks) := by
    intro evs ks c hc h
    refine .key ?_ (fun d _ h => by cases h) h
    simp only [List.mem_cons, List.not_mem_nil, or_false] at hc
    rcases hc with rfl | rfl | rfl <;> rfl
  refine .line (cs := ['a', 'b']) (.typed (ks := [['a'], ['b']]) (types _ (by simp) (types _ (by simp) .nil)) (fits _)) rfl ?_
  refine .line (cs := ['a', 'b']) (.up (ks := [['x']]) (n := 1) (types _ (by simp) .nil)
    (.key rfl .nil) (by decide) (by decide) rfl) rfl ?_
  exact .done

/-- Ctrl-T is bound as ever, so the program can panic by it. -/
theorem C73_refuted : texts (program (wordstar (env plain)) (fun _ => true)
    { input := keys ["a", "b", "\x14", "\x1A", "\x03"] }) = none := by decide +kernel

end

end Readline
