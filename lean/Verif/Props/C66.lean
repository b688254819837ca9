import Verif.Spec.Methods
import Verif.Props.C59
/-!
# C66: the exported methods of `Buffer` do what their comments say

`C66`: what each call does to the line, the cursor and everything else, and what it gives back (`Spec.Does`).
`C66_panics`: calls that do not draw panic exactly if a position or the cursor is outside the line.
`C66_own`: in every session each call of an own command that follows the rules of C59 does this.
`C66_refuted_runes`: contrary to its comment `InsertString` does not return the count of runes.
-/
namespace Readline
open Spec

variable {E : Env} {w : World} {s s' : St}

theorem unitsOf_eq (C : Cfg) (t : Bytes) : unitsOf C t = (segs C t).map Moji.write := by
  simp [unitsOf, segs, Function.comp_def, Moji.norm_write]

theorem popKey_takes (inp : List Ev) :
    match popKey inp with
    | some (.key k, rest) => TakesKey inp (some k) rest
    | some (_, rest) => TakesKey inp none rest
    | none => TakesKey inp none inp := by
  have none_all : ∀ inp : List Ev, popKey inp = none → ∀ ev ∈ inp, ∃ w, ev = .resize w := by
    intro inp
    induction inp with
    | nil => intro _ ev h; cases h
    | cons e inp ih =>
      intro h ev hev
      cases e with
      | resize n =>
        rw [popKey] at h
        split at h
        · cases h
        · rename_i hp
          rcases List.mem_cons.mp hev with rfl | hev
          · exact ⟨n, rfl⟩
          · exact ih hp ev hev
      | key k => cases h
      | err k => cases h
  have some_all : ∀ (inp : List Ev) (k : Ev) (rest : List Ev), popKey inp = some (k, rest) →
      ∃ rs tl, inp = rs ++ k :: tl ∧ rest = rs ++ tl ∧ (∀ ev ∈ rs, ∃ w, ev = .resize w) ∧ ∀ w, k ≠ .resize w := by
    intro inp
    induction inp with
    | nil => intro _ _ h; cases h
    | cons e inp ih =>
      intro k rest h
      cases e with
      | resize n =>
        rw [popKey] at h
        split at h
        · rename_i k' rest' hp
          cases h
          obtain ⟨rs, tl, rfl, rfl, h3, h4⟩ := ih _ _ hp
          refine ⟨.resize n :: rs, tl, rfl, rfl, ?_, h4⟩
          intro ev hev
          rcases List.mem_cons.mp hev with rfl | hev
          · exact ⟨n, rfl⟩
          · exact h3 ev hev
        · cases h
      | key k => cases h; exact ⟨[], inp, rfl, rfl, nofun, nofun⟩
      | err k => cases h; exact ⟨[], inp, rfl, rfl, nofun, nofun⟩
  cases hp : popKey inp with
  | none => exact .nothing (none_all inp hp)
  | some p =>
    obtain ⟨k, rest⟩ := p
    obtain ⟨rs, tl, rfl, rfl, h3, h4⟩ := some_all _ _ _ hp
    cases k with
    | key k => exact .key h3
    | err x => exact .error h3
    | resize n => exact absurd rfl (h4 n)

theorem redrawn_ed (h : s'.ed = s.ed ∨ s'.ed = Ed.predict E.logic s.ed) (hw : s'.termWidth = s.termWidth) :
    Redrawn s s' := by
  have e : s'.ed.line = s.ed.line ∧ s'.ed.cursor = s.ed.cursor ∧ s'.ed.undoes = s.ed.undoes ∧ s'.ed.clip = s.ed.clip ∧
      s'.ed.pending = s.ed.pending ∧ s'.ed.histPtr = s.ed.histPtr ∧ s'.ed.modHist = s.ed.modHist ∧
      s'.ed.input = s.ed.input := by
    rcases h with h | h <;> rw [h] <;> simp
  obtain ⟨e1, e2, e3, e4, e5, e6, e7, e8⟩ := e
  exact ⟨by rw [St.units_eq, St.units_eq]; exact congrArg _ e1, e2, e3, ⟨e4, e5, e6, e7, e8, hw⟩⟩

theorem part_map {α β : Type} (f : α → β) (l : List α) (a b : Int) : (between l a b).map f = between (l.map f) a b := by
  simp [between, List.map_take, List.map_drop]

theorem slice_between {α : Type} {l cs : List α} {a b : Int} (h : slice s l a b = .ok cs) : cs = between l a b :=
  (slice_ok h).2.2.2

theorem units_buf (s : St) : s.units = s.buf.map fun c => c.moji.write := by
  rw [St.units_eq]
  simp [St.line, Moji.norm_write]

/-- `ReplaceAndRepaint`, also for positions right of the cursor. -/
theorem replace_does {pos : Int} {t : Bytes} (hc : s.cursor ≤ s.units.length)
    (h : replaceAndRepaint E s pos t = .ok s') :
    s'.units = s.units.take pos.toNat ++ unitsOf E.cfg t ++ s.units.drop (max pos s.cursor).toNat ∧
      s'.cursor = pos + (unitsOf E.cfg t).length ∧ Spares s s' := by
  have hul : s.units.length = s.buf.length := by rw [units_buf, List.length_map]
  rw [hul] at hc
  have hq := ((replaceAndRepaint_q (E := E) (Quiet.refl s) pos t).ok h).width
  unfold replaceAndRepaint at h
  obtain ⟨⟨s1, wd⟩, h1, h⟩ := bind_ok.mp h
  obtain ⟨⟨s2, ins⟩, h2, h⟩ := bind_ok.mp h
  obtain ⟨-, ⟨b1, u1, e1⟩, hp1, l1⟩ := deleteCells_ok h1
  obtain ⟨⟨hp0, hp⟩, -, e2, -, ⟨b2, u2, e3⟩, l2⟩ := insertString_ok h2
  simp only at e1 l1 hp0 hp e2 e3 l2 h
  have he := repaint_ed h
  rw [resetViewStart_ed, joinUndo_eq] at he
  have hr := redrawn_ed (E := E) (s := { s2 with cursor := pos + ins.length, undoes := Ed.joinUndoes s2.undoes })
    (Or.inr he) (by rw [hq, e3, e1])
  have hins : (ins.map fun c => c.moji.write) = unitsOf E.cfg t := by
    rw [e2]; simp [unitsOf, mojis2cells, Function.comp_def]
  refine ⟨?_, ?_, ?_⟩
  · rw [hr.units]
    show ({ s2 with cursor := _, undoes := _ } : St).units = _
    rw [units_buf, units_buf]
    show s2.buf.map _ = _
    rw [l2, List.map_append, List.map_append, hins]
    have hlen : s.len = s.buf.length := rfl
    have hlen1 : s1.len = s1.buf.length := rfl
    have key : s1.buf.take pos.toNat = s.buf.take pos.toNat ∧
        s1.buf.drop pos.toNat = s.buf.drop (max pos s.cursor).toNat := by
      rw [l1]
      split
      · rename_i hx
        rw [show (max pos s.cursor).toNat = pos.toNat by omega]
        exact ⟨rfl, rfl⟩
      · rename_i hx
        have h3 : pos.toNat + (s.cursor - pos).toNat = (max pos s.cursor).toNat := by omega
        have h4 : (s.buf.take pos.toNat).length = pos.toNat := by rw [List.length_take]; omega
        rw [h3]
        constructor
        · rw [List.take_append_of_le_length (by omega), List.take_of_length_le (by omega)]
        · rw [List.drop_append_of_le_length (by omega), List.drop_eq_nil_of_le (by omega)]; rfl
    rw [key.1, key.2, List.map_take, List.map_drop]
  · rw [hr.cursor, ← hins, List.length_map]
  · have h5 := hr.spares
    refine ⟨h5.clip.trans ?_, h5.pending.trans ?_, h5.histPtr.trans ?_, h5.modHist.trans ?_, h5.input.trans ?_, hq⟩
    all_goals (rw [e3, e1])

/-- `InsertAndRepaint` needs the cursor inside the line. -/
theorem insert_inside {t : Bytes} (h : insertAndRepaint E s t = .ok s') : 0 ≤ s.cursor ∧ s.cursor ≤ s.len := by
  unfold insertAndRepaint replaceAndRepaint at h
  obtain ⟨⟨s1, wd⟩, h1, h⟩ := bind_ok.mp h
  obtain ⟨⟨s2, ins⟩, h2, h⟩ := bind_ok.mp h
  have h3 := (insertString_ok h2).1
  have h4 := (deleteCells_ok h1).2.2.2
  rw [if_pos (Or.inl (by omega))] at h4
  exact ⟨h3.1, by rw [St.len, ← h4]; exact h3.2⟩

/-- What each call does and gives back, if it does not panic. -/
theorem C66 {a : Api} {r : Reply} (hbuilt : ∀ m ∈ s.line, Built E.cfg m) (h0 : 0 ∉ E.delimiters)
    (hc : ∀ pos t, a = .replaceAndRepaint pos t → s.cursor ≤ s.units.length) (h : a.run E s = .ok (s', r)) :
    Does E s s' r a := by
  have hul : s.units.length = s.buf.length := by rw [units_buf, List.length_map]
  have hlen : s.len = s.buf.length := rfl
  have quiet : ∀ {x : M St}, Wp Halts x (Quiet s) → x = .ok s' → s'.termWidth = s.termWidth :=
    fun hw hx => (hw.ok hx).width
  have unit : ∀ {x : M St}, (x >>= fun s => pure (s, Reply.unit)) = .ok (s', r) → x = .ok s' ∧ r = .unit := by
    intro x hx
    obtain ⟨s1, h1, h2⟩ := bind_ok.mp hx
    cases h2
    exact ⟨h1, rfl⟩
  cases a with
  | insertString pos t =>
    obtain ⟨⟨s1, cs⟩, h1, h2⟩ := bind_ok.mp h
    cases h2
    obtain ⟨-, -, h2, h3, ⟨b, u, h4⟩, h5⟩ := insertString_ok h1
    simp only at h2 h3 h4 h5
    refine ⟨?_, by rw [h4], by rw [h4], by rw [h4]; exact ⟨rfl, rfl, rfl, rfl, rfl, rfl⟩, ?_⟩
    · rw [units_buf, units_buf, h5, h2]
      simp [unitsOf, mojis2cells, List.map_take, List.map_drop, Function.comp_def]
    · rw [h2]; simp [unitsOf, mojis2cells]
  | delete pos n =>
    obtain ⟨⟨s1, wd⟩, h1, h2⟩ := bind_ok.mp h
    cases h2
    simp only [Does, hul]
    have hg := deleteCells_ok h1
    unfold deleteCells at h1
    split at h1
    · cases h1
      rw [if_neg (by omega)]
      exact ⟨rfl, rfl⟩
    · rename_i hn
      rw [if_pos (by omega)]
      obtain ⟨del, h2, h1⟩ := bind_ok.mp h1
      obtain ⟨b, h3, h1⟩ := bind_ok.mp h1
      obtain ⟨-, ⟨b, u, h4⟩, h5, h6⟩ := hg
      rw [if_neg hn] at h6
      have h5 := h5 hn
      simp only at h4 h6
      refine ⟨?_, by rw [h4], by rw [h4], by rw [h4]; exact ⟨rfl, rfl, rfl, rfl, rfl, rfl⟩, ?_⟩
      · rw [units_buf, units_buf, h6, show (pos + n).toNat = pos.toNat + n.toNat by omega]
        simp [List.map_take, List.map_drop]
      · simp only [pure_ok, Prod.mk.injEq] at h1
        rw [← h1.2, slice_between h2]
        simp [cellsWidth, columnsOf, part_map]
  | resetViewStart => cases h; exact ⟨redrawn_ed (E := E) (Or.inl rfl) rfl, rfl⟩
  | getWidthBetween a b =>
    obtain ⟨wd, h1, h2⟩ := bind_ok.mp h
    cases h2
    obtain ⟨cs, h2, h3⟩ := bind_ok.mp h1
    cases h3
    exact ⟨rfl, by rw [slice_between h2]; simp [cellsWidth, columnsOf, part_map]⟩
  | subString a b =>
    obtain ⟨t, h1, h2⟩ := bind_ok.mp h
    cases h2
    obtain ⟨cs, h2, h3⟩ := bind_ok.mp h1
    cases h3
    exact ⟨rfl, by rw [slice_between h2, units_buf, ← part_map]; simp [cell2string, List.flatMap]⟩
  | currentWordTop =>
    obtain ⟨t, h1, h2⟩ := bind_ok.mp h
    cases h2
    obtain ⟨c1, c2, -⟩ := currentWordTop_ok h1
    have hat := At.exists (s := s) c1 (by omega)
    obtain ⟨a, v, e1, e2, e3⟩ := currentWord_units hbuilt h0 hat
    refine ⟨rfl, _, _, a, v, hat, e1, e2, ?_⟩
    unfold currentWord at e3
    obtain ⟨t1, g1, e3⟩ := bind_ok.mp e3
    obtain ⟨t2, g2, e3⟩ := bind_ok.mp e3
    rw [h1] at g1
    cases g1
    cases e3
    rfl
  | currentWord =>
    obtain ⟨t, h1, h2⟩ := bind_ok.mp h
    have : ∃ t, currentWordTop E s = .ok t := by
      unfold currentWord at h1
      obtain ⟨t1, g1, -⟩ := bind_ok.mp h1
      exact ⟨t1, g1⟩
    obtain ⟨t1, g1⟩ := this
    obtain ⟨c1, c2, -⟩ := currentWordTop_ok g1
    have hat := At.exists (s := s) c1 (by omega)
    obtain ⟨a, v, e1, e2, e3⟩ := currentWord_units hbuilt h0 hat
    rw [e3] at h1
    cases h1
    cases h2
    exact ⟨rfl, _, _, a, v, hat, e1, e2, rfl⟩
  | getKey =>
    cases h
    have hp := popKey_takes s.input
    unfold Does getKey
    have h1 : (s.emit .await).input = s.input := rfl
    dsimp only
    rw [h1]
    cases hq : popKey s.input with
    | none => rw [hq] at hp; exact ⟨none, hp, redrawn_ed (E := E) (Or.inl rfl) rfl, rfl⟩
    | some p =>
      obtain ⟨ev, rest⟩ := p
      rw [hq] at hp
      cases ev <;> exact ⟨_, hp, redrawn_ed (E := E) (Or.inl rfl) rfl, rfl⟩
  | insertAndRepaint t =>
    obtain ⟨h1, rfl⟩ := unit h
    obtain ⟨c1, c2⟩ := insert_inside h1
    have hat := At.exists (s := s) c1 (by omega)
    refine ⟨_, _, hat, ?_, ?_, rfl⟩
    · have : s.cursor = ((s.units.take s.cursor.toNat).length : Nat) := hat.cursor
      refine C59_replace (m := []) (by rw [List.append_nil]; exact hat) ?_
      rw [← this]; exact h1
    · exact (replace_does (by omega) h1).2.2
  | replaceAndRepaint pos t =>
    obtain ⟨h1, rfl⟩ := unit h
    obtain ⟨e1, e2, e3⟩ := replace_does (hc _ _ rfl) h1
    exact ⟨e1, e2, e3, rfl⟩
  | gotoHead => cases h; exact ⟨redrawn_ed (E := E) (Or.inl rfl) rfl, rfl⟩
  | drawFromHead =>
    obtain ⟨h1, rfl⟩ := unit h
    exact ⟨redrawn_ed (Or.inr (repaint_ed h1)) (quiet (repaint_q (Quiet.refl s)) h1), rfl⟩
  | repaintAfterPrompt =>
    obtain ⟨h1, rfl⟩ := unit h
    exact ⟨redrawn_ed (Or.inr (repaint_ed (s := resetViewStart E s) h1)) (quiet (repaint_q ((Quiet.refl s).of)) h1), rfl⟩
  | repaintAll =>
    obtain ⟨h1, rfl⟩ := unit h
    exact ⟨redrawn_ed (Or.inr (repaintAll_ed h1)) (quiet (repaintAll_q (Quiet.refl s)) h1), rfl⟩
  | repaintLastLine =>
    obtain ⟨h1, rfl⟩ := unit h
    exact ⟨redrawn_ed (Or.inr (repaintLastLine_ed h1)) (quiet (repaintLastLine_q (Quiet.refl s)) h1), rfl⟩
  | setCursor n => cases h; exact ⟨rfl, rfl⟩
  | setViewStart n => cases h; exact ⟨rfl, rfl⟩
  | setBuffer cs => cases h; exact ⟨rfl, rfl⟩
  | write t => cases h; exact ⟨redrawn_ed (E := E) (Or.inl rfl) rfl, rfl⟩
  | call c =>
    obtain ⟨⟨s1, rc⟩, h1, h2⟩ := bind_ok.mp h
    cases h2
    exact ⟨rc, h1, rfl⟩

theorem run_ok {α : Type} {x : M α} {f : α → M (St × Reply)} (hf : ∀ a, ∃ q, f a = .ok q) :
    (∃ q, (x >>= f) = .ok q) ↔ ∃ a, x = .ok a := by
  constructor
  · rintro ⟨q, h⟩
    obtain ⟨a, h, -⟩ := bind_ok.mp h
    exact ⟨a, h⟩
  · rintro ⟨a, h⟩
    obtain ⟨q, hq⟩ := hf a
    exact ⟨q, bind_ok.mpr ⟨a, h, hq⟩⟩

theorem slice_iff {α : Type} {l : List α} {a b : Int} :
    (∃ cs, slice s l a b = .ok cs) ↔ 0 ≤ a ∧ a ≤ b ∧ b ≤ l.length := by
  constructor
  · rintro ⟨cs, h⟩
    obtain ⟨h1, h2, h3, -⟩ := slice_ok h
    exact ⟨h1, h2, h3⟩
  · rintro ⟨h1, h2, h3⟩
    exact ⟨_, by unfold slice; rw [if_pos ⟨h1, h2⟩, if_pos h3]⟩

/-- When a call that does not draw panics: exactly if it is given a position outside the line, or the cursor is
outside the line and it looks at the word before it. -/
theorem C66_panics {a : Api} (hp : paints a = false) : (∃ q, a.run E s = .ok q) ↔ Named s a := by
  have hul : s.units.length = s.buf.length := by rw [units_buf, List.length_map]
  have hlen : s.len = s.buf.length := rfl
  have cwt : (∃ t, currentWordTop E s = .ok t) ↔ 0 ≤ s.cursor ∧ s.cursor ≤ s.buf.length := by
    constructor
    · rintro ⟨t, h⟩
      obtain ⟨h1, h2, -⟩ := currentWordTop_ok h
      exact ⟨h1, h2⟩
    · rintro ⟨h1, h2⟩
      obtain ⟨cs, h⟩ := slice_iff (s := s).mpr ⟨Int.le_refl 0, h1, h2⟩
      exact ⟨_, bind_ok.mpr ⟨cs, h, rfl⟩⟩
  cases a with
  | insertString pos t =>
    unfold Named
    rw [hul]
    refine (run_ok fun q => ⟨_, rfl⟩).trans ?_
    constructor
    · rintro ⟨q, h⟩; exact (insertString_ok h).1
    · intro h
      have h : 0 ≤ pos ∧ pos ≤ s.len := h
      have hb : ∀ cs, bufInsert s pos cs = .ok (sliceInsert s.buf pos.toNat cs) := fun cs => if_pos h
      exact ⟨_, bind_ok.mpr ⟨_, bind_ok.mpr ⟨_, hb _, rfl⟩, rfl⟩⟩
  | delete pos n =>
    unfold Named
    rw [hul]
    refine (run_ok fun q => ⟨_, rfl⟩).trans ?_
    constructor
    · rintro ⟨q, h⟩ hn
      exact (deleteCells_ok h).2.2.1 (by omega)
    · intro h
      unfold deleteCells
      split
      · exact ⟨_, rfl⟩
      · obtain ⟨cs, h1⟩ := slice_iff (s := s) (l := s.buf) (a := pos) (b := pos + n).mpr ⟨h (by omega), by omega, by omega⟩
        rw [h1]
        show ∃ q, (bufDelete _ pos n.toNat >>= _) = .ok q
        unfold bufDelete
        rw [if_pos (by show 0 ≤ pos ∧ pos + _ ≤ s.len; exact ⟨h (by omega), by omega⟩)]
        exact ⟨_, rfl⟩
  | getWidthBetween a b =>
    unfold Named
    rw [hul]
    refine (run_ok fun q => ⟨_, rfl⟩).trans (Iff.trans ?_ (slice_iff (s := s)))
    constructor
    · rintro ⟨q, h⟩; obtain ⟨cs, h, -⟩ := bind_ok.mp h; exact ⟨cs, h⟩
    · rintro ⟨cs, h⟩; exact ⟨_, bind_ok.mpr ⟨cs, h, rfl⟩⟩
  | subString a b =>
    unfold Named
    rw [hul]
    refine (run_ok fun q => ⟨_, rfl⟩).trans (Iff.trans ?_ (slice_iff (s := s)))
    constructor
    · rintro ⟨q, h⟩; obtain ⟨cs, h, -⟩ := bind_ok.mp h; exact ⟨cs, h⟩
    · rintro ⟨cs, h⟩; exact ⟨_, bind_ok.mpr ⟨cs, h, rfl⟩⟩
  | currentWordTop =>
    unfold Named
    rw [hul]
    exact (run_ok fun q => ⟨_, rfl⟩).trans cwt
  | currentWord =>
    unfold Named
    rw [hul]
    refine (run_ok fun q => ⟨_, rfl⟩).trans ?_
    constructor
    · rintro ⟨q, h⟩
      unfold currentWord at h
      obtain ⟨t, h, -⟩ := bind_ok.mp h
      exact cwt.mp ⟨t, h⟩
    · intro h
      have := currentWordTop_wp (E := E) (s := s) (Q := fun _ => False) h.1 h.2
      obtain ⟨t, ht⟩ := cwt.mpr h
      have hb := this.ok ht
      obtain ⟨cs, h1⟩ := slice_iff (s := s) (l := s.buf) (a := t) (b := s.cursor).mpr ⟨hb.1, hb.2, h.2⟩
      exact ⟨_, bind_ok.mpr ⟨t, ht, bind_ok.mpr ⟨_, bind_ok.mpr ⟨cs, h1, rfl⟩, rfl⟩⟩⟩
  | resetViewStart | getKey | gotoHead | setCursor | setViewStart | setBuffer | write => exact ⟨fun _ => trivial, fun _ => ⟨_, rfl⟩⟩
  | _ => cases hp

/-- A run of an own command that follows the rules can be told from what its calls do. -/
theorem own_tells {p : Own} {hs : List (List Moji)} (h0 : 0 ∉ E.delimiters) (h : LogInv E s hs) (ho : Obeys E p s)
    {r : Result} (hr : p.run E s = .ok (s', r)) : Tells E p s s' r := by
  induction p generalizing s hs with
  | ret r => cases hr; exact .ret
  | look next ih => exact .look (ih s h ho hr)
  | act a next ih =>
    obtain ⟨⟨s1, reply⟩, h1, h2⟩ := bind_ok.mp hr
    obtain ⟨hs1, h3, -⟩ := act_inv ho.1 h h1
    refine .act (C66 h.ed.built h0 ?_ h1) (ih reply h3 (ho.2 s1 reply h1) h2)
    rintro pos t rfl
    have := ho.1.2.2.1.2
    rw [units_buf, List.length_map]
    exact this

/-- In a session of built-in commands and own commands that follow the rules of C59: what a key bound to an own
command does is told by its calls. -/
theorem C66_own {k : Bytes} {rest : List Ev} {f : St → M (St × Result)} {o : Option RLRes} (hk : LawfulKeys E)
    (h0 : 0 ∉ E.delimiters) (hc : 0 ≤ w.cursor) (h : CalmReachable E w s) (hcalm : Calm E s)
    (hi : s.input = .key k :: rest) (hl : lookupCommand E k = .custom f) (hst : step E s = .ok (s', o)) :
    ∃ p s1 rc, f = Own.run E.own p ∧ Tells E.own p (called s rest) s1 rc ∧
      (rc = .cont → s' = s1.emit .cursorOn ∧ o = none) ∧
      (rc ≠ .cont → ∃ r, o = some r ∧ r.text = s1.units.flatten) := by
  obtain ⟨hs, hinv, -⟩ := lawful_inv hk hc h
  obtain ⟨p, rfl, hp⟩ := hk k f hl
  rw [step_key hi, hl] at hst
  unfold execCmd at hst
  obtain ⟨⟨s1, rc⟩, h1, hst⟩ := bind_ok.mp hst
  have hlog : LogInv E.own (called s rest) hs := ⟨hinv.hist, ⟨hinv.ed.built, hinv.ed.log⟩⟩
  have ht := own_tells (E := E.own) h0 hlog (hp (called s rest) hinv.inside hcalm.1) h1
  refine ⟨p, s1, rc, rfl, ht, ?_, ?_⟩
  · rintro rfl
    cases hst
    exact ⟨rfl, rfl⟩
  · intro hrc
    cases rc with
    | cont => exact absurd rfl hrc
    | enter | intr | abort =>
      obtain ⟨⟨s2, r⟩, h2, h3⟩ := bind_ok.mp hst
      cases h3
      refine ⟨r, rfl, ?_⟩
      have h4 : r = _ := (finish_ed h2).2
      rw [h4]
      show (s1.emit .cursorOn).text = _
      rw [units_buf]
      simp [St.text, St.emit, cell2string, List.flatMap]

section
open Example

/-- What a call gives back, and the line and cursor afterwards. -/
def Example.ask (E : Env) (a : Api) (s : M St) : Option (Option Int × List Bytes × Int) :=
  match s with
  | .error _ => none
  | .ok s =>
    match a.run E s with
    | .error _ => none
    | .ok (s, .num n) => some (some n, s.units, s.cursor)
    | .ok (s, _) => some (none, s.units, s.cursor)

/-- Calls on the line "a あ\"b c" whose quotation is open. -/
example :
    let s := after (env plain) { input := keys ["a", " ", "あ", "\"", "b", " ", "c"] } 7
    [ask (env plain) (.insertString 1 (b "xy")) s, ask (env plain) (.delete 1 2) s, ask (env plain) (.delete 5 9) s,
     ask (env plain) (.getWidthBetween 0 3) s, ask (env plain) .currentWordTop s,
     ask (env plain) (.replaceAndRepaint 2 (b "z")) s, ask (env plain) (.insertAndRepaint (b "z")) s,
     ask (env plain) (.subString 3 8) s, ask (env plain) (.insertString 8 []) s] =
    [some (some 2, [b "a", b "x", b "y", b " ", b "あ", b "\"", b "b", b " ", b "c"], 7),
     some (some 3, [b "a", b "\"", b "b", b " ", b "c"], 7),
     some (some 0, [b "a", b " ", b "あ", b "\"", b "b", b " ", b "c"], 7),
     some (some 4, [b "a", b " ", b "あ", b "\"", b "b", b " ", b "c"], 7),
     some (some 2, [b "a", b " ", b "あ", b "\"", b "b", b " ", b "c"], 7),
     some (none, [b "a", b " ", b "z"], 3),
     some (none, [b "a", b " ", b "あ", b "\"", b "b", b " ", b "c", b "z"], 8), none, none] := by decide +kernel

/-- **Refuted**: "It returns the count of runes" (buffer.go:127).  The text of one unit has three runes. -/
theorem C66_refuted_runes :
    (runesOf (b "👩\u200d🚀")).length = 3 ∧
    ask (env full) (.insertString 0 (b "👩\u200d🚀")) (after (env full) {} 0) = some (some 1, [b "👩\u200d🚀"], 0) := by
  decide +kernel
end

end Readline
