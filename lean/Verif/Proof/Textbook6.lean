import Verif.Proof.Textbook5
import Verif.Props.C01
/-!
# A call of `ReadLine` and the session of the textbook
-/
namespace Readline
open Spec

variable {E : Env} {w : World} {D : Desk} {t : List Char} {n : Nat} {clip : Option (List Char)} {ks : List (List Char)}

/-- The predictor of the editor foresees what the desk foresees. -/
def Spec.Foresees (E : Env) (D : Desk) : Prop :=
  ∀ (hist : List (List Char)) (t : List Char), ({ E with history := hist.map utf8 } : Env).predict (utf8 t) = utf8 (D.foresee hist t)

theorem foresees_usual (h : E.predictor = none) (hD : D.foresee = newestRest) : Foresees E D := by
  intro hist t
  unfold Env.predict
  dsimp only
  rw [h, hD]
  exact predictByHistory_chars hist t

theorem Spec.Foresees.at (h : Foresees E D) (hh : E.history = D.history.map utf8) (t : List Char) : E.predict (utf8 t) = utf8 (D.guess t) := by
  have := h D.history t
  rw [← hh] at this
  exact this

/-- What is foreseen stays within the characters of the texts. -/
theorem predicts_over {P : Nat → Prop} (h : Foresees E D) (hh : E.history = D.history.map utf8) (hw : D.Within fun c => P c.toNat)
    (hp : ∀ u ∈ D.history, ∀ c ∈ u, P c.toNat) : PredictsOver P E := by
  rintro f hf _ ⟨cs, rfl⟩ ho
  have he := h.at hh cs
  unfold Env.predict at he
  rw [hf] at he
  have he : f E.history (utf8 cs) = utf8 (D.guess cs) := he
  rw [he]
  unfold Over at ho ⊢
  rw [runesOf_utf8] at ho ⊢
  intro r hr
  rw [List.mem_map] at hr
  obtain ⟨c, hc, rfl⟩ := hr
  exact hw.all hp (fun c hc => ho _ (List.mem_map.mpr ⟨c, hc, rfl⟩)) c hc

/-- The editor is set up as the textbook's, and the texts consist of characters that stand alone. -/
structure Spec.Setting (E : Env) (w : World) (D : Desk) (t : List Char) (n : Nat) (clip : Option (List Char))
    (ks : List (List Char)) : Prop where
  builtin : BuiltinKeys E
  history : E.history = D.history.map utf8
  cycling : E.historyCycling = D.cycling
  guessing : decide (E.predictColor.1 ≠ []) = D.guessing
  predictor : Foresees E D
  marks : E.delimiters = D.marks.map Char.toNat
  noNul : '\x00' ∉ D.marks
  upper : ∀ t, E.toUpper (utf8 t) = utf8 (D.upper t)
  clipSet : E.clipSet = fun _ t => some t
  default : E.default = utf8 t
  cursor : w.cursor = n
  clipboard : w.clip = clip.map utf8
  keys : keysIn w.input = ks.map utf8
  noErr : NoErr w.input
  full : ∀ k ∈ ks, k ≠ []
  means : ∀ k ∈ ks, Means (lookupCommand E (utf8 k)) (D.verb k)
  /-- a prediction is the one for the line when it is taken -/
  fresh : D.guessing = false ∨ (∀ k ∈ ks, D.verb k ≠ .right) ∨ ∀ k ∈ ks, stales (lookupCommand E (utf8 k)) = false
  aloneDefault : AloneIn E.cfg t
  aloneHistory : ∀ h ∈ D.history, AloneIn E.cfg h
  aloneClip : ∀ u, clip = some u → AloneIn E.cfg u
  aloneTyped : ∀ k ∈ ks, ∀ u, D.verb k = .type u → AloneIn E.cfg (keyText u)
  aloneLiteral : (∃ k ∈ ks, D.verb k = .literally) → ∀ u ∈ ks, AloneIn E.cfg (keyText u)
  aloneGuess : D.Within fun c => ¬ Joins E.cfg c.toNat
  aloneQuote : (∃ k ∈ ks, D.verb k = .pasteQuoted) → ¬ Joins E.cfg '"'.toNat

theorem Spec.Setting.suits (h : Setting E w D t n clip ks) : Suits D E.logic where
  history := h.history
  cycling := h.cycling
  guessing := h.guessing
  predict := h.predictor.at h.history
  within := h.aloneGuess
  marks := h.marks
  noNul := h.noNul
  upper := h.upper
  clipSet := h.clipSet
  alone := h.aloneHistory

theorem mem_keysIn {k : Bytes} {evs : List Ev} : Ev.key k ∈ evs ↔ k ∈ keysIn evs := by
  induction evs with
  | nil => simp [keysIn]
  | cons x evs ih => cases x <;> simp [keysIn, ih]

theorem Spec.Setting.key (h : Setting E w D t n clip ks) {q : Bytes} (hq : Ev.key q ∈ w.input) : ∃ k ∈ ks, q = utf8 k := by
  rw [mem_keysIn, h.keys, List.mem_map] at hq
  obtain ⟨k, hk, rfl⟩ := hq
  exact ⟨k, hk, rfl⟩

theorem inserted_chars (u : List Char) : inserted (utf8 u) = utf8 (keyText u) := by
  rw [← stripAlt_chars]
  rfl

theorem Spec.Setting.typed (h : Setting E w D t n clip ks) {k : Bytes} (hk : FromKey E w k) :
    ∃ u, k = utf8 u ∧ AloneIn E.cfg (keyText u) := by
  rcases hk with ⟨q, hq, hc⟩ | ⟨⟨q, hq, hc⟩, hk⟩
  · obtain ⟨x, hx, rfl⟩ := h.key hq
    have hm := h.means x hx
    rw [hc] at hm
    generalize hv : D.verb x = v at hm
    cases hm with
    | type u _ => exact ⟨u, rfl, h.aloneTyped x hx u hv⟩
  · obtain ⟨x, hx, rfl⟩ := h.key hq
    obtain ⟨y, hy, rfl⟩ := h.key hk
    have hm := h.means x hx
    rw [hc] at hm
    generalize hv : D.verb x = v at hm
    cases hm with
    | literally => exact ⟨y, rfl, h.aloneLiteral ⟨x, hx, hv⟩ y hy⟩

theorem Spec.Setting.sources (h : Setting E w D t n clip ks) : Sources (fun r => ¬ Joins E.cfg r) E w where
  default := by rw [h.default]; exact over_alone.mpr h.aloneDefault
  history := by
    intro x hx
    rw [h.history, List.mem_map] at hx
    obtain ⟨y, hy, rfl⟩ := hx
    exact over_alone.mpr (h.aloneHistory y hy)
  clip := by
    intro x hx
    rw [h.clipboard] at hx
    cases hc : clip with
    | none => rw [hc] at hx; cases hx
    | some u => rw [hc] at hx; cases hx; exact over_alone.mpr (h.aloneClip u hc)
  clipSet := by intro c x u hu; rw [h.clipSet] at hu; cases hu; exact .inl rfl
  predict := predicts_over h.predictor h.history h.aloneGuess h.aloneHistory
  keys := by
    intro k hk
    obtain ⟨u, rfl, hu⟩ := h.typed hk
    rw [inserted_chars]
    exact over_alone.mpr hu
  completion := by
    intro q K hq hc
    obtain ⟨x, hx, rfl⟩ := h.key hq
    have hm := h.means x hx
    rw [hc] at hm
    cases hm
  quotes := by
    intro q hq hc
    obtain ⟨x, hx, rfl⟩ := h.key hq
    have hm := h.means x hx
    rw [hc] at hm
    generalize hv : D.verb x = v at hm
    cases hm
    exact h.aloneQuote ⟨x, hx, hv⟩
  joined := by
    intro hz hj
    exfalso
    rcases hj with hj | hj
    · exact hj (by unfold Joins; simp [hz])
    · exact hj (by unfold Joins; simp [hz])
  whole := by
    intro _ k hk _
    obtain ⟨u, rfl, -⟩ := h.typed hk
    rw [inserted_chars]
    exact ⟨_, rfl⟩

/-! ## Turns -/

/-- Some turns. -/
inductive Spec.Turned (D : Desk) (p : Page) (ks : List (List Char)) : Page → List (List Char) → Prop
  | start : Turned D p ks p ks
  | turn {q q' : Page} {k : List Char} {r r' : List (List Char)} : Turned D p ks q (k :: r) → turn D q k r = .inl (q', r') →
      Turned D p ks q' r'

theorem run_suffix (D : Desk) (q : Quest) (ks : List (List Char)) : (Quest.run D q ks).2 <:+ ks := by
  induction ks generalizing q with
  | nil => exact List.suffix_refl _
  | cons k ks ih =>
    rw [Quest.run]
    split
    · exact (ih _).trans (List.suffix_cons _ _)
    · exact List.suffix_cons _ _

theorem turn_suffix {D : Desk} {p q : Page} {k : List Char} {ks ks' : List (List Char)} (h : turn D p k ks = .inl (q, ks')) : ks' <:+ ks := by
  unfold turn at h
  split at h
  case h_3 =>
    split at h
    · cases h
    · cases h; exact List.suffix_refl _
  case h_17 =>
    split at h
    · cases h; exact List.suffix_refl _
    · cases h; exact List.suffix_cons _ _
  case h_21 =>
    cases hu : p.undo with
    | none => rw [hu] at h; cases h
    | some q => rw [hu] at h; cases h; exact List.suffix_refl _
  case h_24 =>
    have := run_suffix D { pos := D.history.length - 1 } ks
    split at h
    · rename_i e; cases h; rw [e] at this; exact this
    · rename_i e; cases h; rw [e] at this; exact this
  all_goals first | (cases h; exact List.suffix_refl _) | cases h

theorem Spec.Turned.suffix {p q : Page} {r : List (List Char)} (h : Turned D p ks q r) : r <:+ ks := by
  induction h with
  | start => exact List.suffix_refl _
  | turn _ h1 ih => exact (turn_suffix h1).trans ((List.suffix_cons _ _).trans ih)

/-- What the turns lead to does not depend on the fuel. -/
theorem Spec.Turned.turns {p q : Page} {r : List (List Char)} (h : Turned D p ks q r) {m : Nat} (hm : ks.length ≤ m) :
    ∃ m', r.length ≤ m' ∧ turns D m p ks = turns D m' q r := by
  induction h with
  | start => exact ⟨m, hm, rfl⟩
  | @turn q q' k r r' h1 h2 ih =>
    obtain ⟨m', hm', e⟩ := ih
    rw [List.length_cons] at hm'
    obtain ⟨m', rfl⟩ : ∃ x, m' = x + 1 := ⟨m' - 1, by omega⟩
    refine ⟨m', by have := (turn_suffix h2).length_le; omega, ?_⟩
    rw [e, Spec.turns, h2]

theorem Spec.Turned.ends {p q : Page} {k : List Char} {r : List (List Char)} (h : Turned D p ks q (k :: r)) {a : Ending}
    (ha : Spec.turn D q k r = .inr a) {m : Nat} (hm : ks.length ≤ m) : Spec.turns D m p ks = a := by
  obtain ⟨m', hm', e⟩ := h.turns hm
  rw [List.length_cons] at hm'
  obtain ⟨m', rfl⟩ : ∃ x, m' = x + 1 := ⟨m' - 1, by omega⟩
  rw [e, Spec.turns, ha]

theorem Spec.Turned.starves {p q : Page} (h : Turned D p ks q []) {m : Nat} (hm : ks.length ≤ m) : Spec.turns D m p ks = .starved := by
  obtain ⟨m', -, e⟩ := h.turns hm
  rw [e]
  cases m' <;> rfl

/-! ## The states of a call -/

theorem opening_drawn (h : Setting E w D t n clip ks) {s : St} (hs : startSt E w = .ok s) :
    Portrays E.logic s.ed (opening D t n clip) := by
  rw [(startSt_ed hs).1]
  unfold Ed.start
  refine Portrays.predict ?_
  have hseg : segs E.logic.cfg E.logic.default = t.map (unit E.cfg) := by
    show segs E.cfg E.default = _
    rw [h.default, segs_alone h.aloneDefault]
  have htext : (opening D t n clip).text = t := List.take_append_drop _ _
  refine ⟨?_, ?_, ?_, rfl, h.clipboard, ?_, fun _ => rfl, ?_⟩
  · rw [htext]; exact hseg
  · dsimp only
    rw [hseg, List.length_map, h.cursor]
    show _ = (((t.take n).length : Nat) : Int)
    rw [List.length_take]
    split <;> omega
  · dsimp only
    rw [hseg, List.length_map]
    show _ = [Change.slip { before := [], place := 0, cut := [], put := t.length }]
    unfold Change.slip
    simp [utf8]
  · show Ed.histLen E.logic = ((D.history.length : Nat) : Int)
    unfold Ed.histLen
    show ((E.history.length : Nat) : Int) = _
    rw [h.history, List.length_map]
  · rw [htext]
    refine ⟨?_, trivial⟩
    show if false = true then _ else 0 + t.length ≤ t.length ∧ [] = t.take 0 ++ [] ++ t.drop (0 + t.length)
    simp

theorem off_suffix (h : Setting E w D t n clip ks) (hg : D.guessing = false) {s : St} (hr : Reachable E w s) : s.ed.suffix = none := by
  have hoff : E.logic.predictOn = false := h.guessing.trans hg
  have hpred : ∀ e : Ed, Ed.predict E.logic e = e := fun e => by unfold Ed.predict; rw [if_pos hoff]
  have hL : E.logic.off E.logic.predict = E.logic := by
    unfold Logic.off
    rw [← hoff]
  induction hr with
  | start hs => rw [(startSt_ed hs).1]; unfold Ed.start; rw [hpred]
  | @step s s' hr hst ih =>
    cases hi : s.input with
    | nil => rw [step, hi] at hst; cases hst
    | cons ev rest =>
      cases ev with
      | err x => rw [step, hi] at hst; cases hst
      | resize v => rw [(step_resize_ed hi hst).2, hpred]; exact ih
      | key k =>
        obtain ⟨h1, h2⟩ := step_key_ed hi rfl (BuiltinKeys.builtin h.builtin k) hst
        have hb : ({ s.ed with input := rest } : Ed).bare = { s.ed with input := rest } := by
          unfold Ed.bare
          simp only [← ih]
        have hcall := Ed.call_bare (L := E.logic) (p := E.logic.predict) (lookupCommand E k) { s.ed with input := rest } (by
          intro _ _
          unfold Ed.suffixList
          show s.ed.suffix.getD [] = []
          rw [ih]
          rfl)
        rw [hL, hb] at hcall
        have hsuf : (Ed.call E.logic (lookupCommand E k) { s.ed with input := rest }).1.suffix = none := by
          have := congrArg (fun x => x.1.suffix) hcall
          exact this.symm
        have hc : (Ed.call E.logic (lookupCommand E k) { s.ed with input := rest }).2 = .cont := by
          cases hx : (Ed.call E.logic (lookupCommand E k) { s.ed with input := rest }).2 with
          | cont => rfl
          | _ => have := (h2 (by rw [hx]; simp)).1; cases this
        rcases (h1 hc).2 with h3 | ⟨-, h3⟩
        · rw [h3]; exact hsuf
        · rw [h3, hpred]; exact hsuf

theorem offers (h : Setting E w D t n clip ks) {s : St} (hr : Reachable E w s) {p : Page} (hd : Portrays E.logic s.ed p)
    (hk : D.guessing = false ∨ ∀ k ∈ ks, stales (lookupCommand E (utf8 k)) = false) : Offers D s.ed p := by
  by_cases hg : D.guessing = false
  · have hs := off_suffix h hg hr
    have hl : s.ed.suffixList = [] := by unfold Ed.suffixList; rw [hs]; rfl
    have ho : p.offer D = [] := by unfold Page.offer; rw [if_pos (.inl hg)]
    exact ⟨by rw [hl, ho]; simp [utf8, lineText], by rw [hl, ho]; exact ⟨fun _ => rfl, fun _ => rfl⟩⟩
  · have hf : Ed.Fresh E.logic s.ed := by
      rcases hk with h' | h'
      · exact absurd h' hg
      · refine reachable_fresh h.builtin (fun k hk => ?_) hr
        obtain ⟨x, hx, rfl⟩ := h.key hk
        exact h' x hx
    have hon : ¬ E.logic.predictOn = false := fun hx => hg (h.guessing.symm.trans hx)
    unfold Ed.Fresh Ed.predict at hf
    rw [if_neg hon] at hf
    have hlen : s.ed.line.length = p.text.length := by rw [hd.line, List.length_map]
    by_cases h0 : p.text = []
    · rw [if_pos (by rw [hlen, h0]; rfl)] at hf
      have hs : s.ed.suffix = none := (congrArg Ed.suffix hf).symm
      have hl : s.ed.suffixList = [] := by unfold Ed.suffixList; rw [hs]; rfl
      have ho : p.offer D = [] := by unfold Page.offer; rw [if_pos (.inr h0)]
      exact ⟨by rw [hl, ho]; simp [utf8, lineText], by rw [hl, ho]; exact ⟨fun _ => rfl, fun _ => rfl⟩⟩
    · rw [if_neg (by rw [hlen]; exact fun hx => h0 (List.length_eq_zero_iff.mp hx))] at hf
      have hs : s.ed.suffix = some (stringToMoji E.logic.cfg (E.logic.predict s.ed.text)) := (congrArg Ed.suffix hf).symm
      have hl : s.ed.suffixList = stringToMoji E.logic.cfg (utf8 (D.guess p.text)) := by
        unfold Ed.suffixList; rw [hs, hd.text, h.suits.predict]; rfl
      have ho : p.offer D = D.guess p.text := by unfold Page.offer; rw [if_neg (by rintro (hx | hx); exact hg hx; exact h0 hx)]
      have hseg := segs_alone (h.suits.guess_alone (text_alone hd (reachable_from h.builtin h.sources hr)))
      unfold segs at hseg
      constructor
      · rw [hl, ho, ← lineText_map_norm, hseg, lineText_chars]
      · rw [hl, ho]
        constructor
        · intro hx; rw [hx] at hseg; exact List.map_eq_nil_iff.mp hseg.symm
        · intro hx; rw [hx] at hseg ⊢; exact List.map_eq_nil_iff.mp hseg

/-- A key at a state that is drawn: the turn of the textbook and the call of the command. -/
theorem drawn_turn (h : Setting E w D t n clip ks) {s : St} (hr : Reachable E w s) {p : Page} {kb : Bytes} {rest : List Ev}
    {r : List (List Char)} (ht : Turned D (opening D t n clip) ks p r) (hd : Portrays E.logic s.ed p) (hrd : Upcoming s.input r)
    (hi : s.input = .key kb :: rest) :
    ∃ k r', r = k :: r' ∧ k ∈ ks ∧ kb = utf8 k ∧
      (∀ q ks', turn D p k r' = .inl (q, ks') → Lead E.logic { s.ed with input := rest } (lookupCommand E kb) q ks') ∧
      (∀ a, turn D p k r' = .inr a → (a = .crashed ∧ lookupCommand E kb = .undo ∧ p.undo = none) ∨
        ((Ed.call E.logic (lookupCommand E kb) { s.ed with input := rest }).2 ≠ .cont ∧
          a.answer = some { text := (Ed.call E.logic (lookupCommand E kb) { s.ed with input := rest }).1.text,
                            err := endError (Ed.call E.logic (lookupCommand E kb) { s.ed with input := rest }).2 })) := by
  have ha : AloneEd E.logic s.ed := reachable_from h.builtin h.sources hr
  rw [hi] at hrd
  have hks := hrd.keys
  cases r with
  | nil => cases hks
  | cons k r =>
    rw [List.map_cons] at hks
    have hks : kb :: keysIn rest = utf8 k :: r.map utf8 := hks
    obtain ⟨rfl, hks'⟩ := List.cons.inj hks
    have hkm : k ∈ ks := ht.suffix.subset (by simp)
    have hsub : ∀ x ∈ r, x ∈ ks := fun x hx => ht.suffix.subset (by simp [hx])
    have hr' : Upcoming ({ s.ed with input := rest } : Ed).input r :=
      ⟨hks', fun x hx => hrd.quiet x (by simp [hx]), fun x hx => hrd.full x (by simp [hx])⟩
    refine ⟨k, r, rfl, hkm, rfl, ?_⟩
    refine call_turn h.suits (h.means k hkm) (hd.input rest)
      ⟨ha.built, ha.line, ha.suffix, ha.undoes, ha.pending, ha.whole, ha.modHist, ha.clip⟩ hr' (fun hc => ?_)
      ⟨h.aloneTyped k hkm, fun hv x hx => h.aloneLiteral ⟨k, hkm, hv⟩ x (hsub x hx), fun hv => h.aloneQuote ⟨k, hkm, hv⟩⟩
    have hm := h.means k hkm
    rw [hc] at hm
    have hv : D.verb k = .right := by
      generalize D.verb k = v at hm
      cases hm
      rfl
    have := offers h hr hd (h.fresh.imp id fun hx => hx.resolve_left fun hx => hx k hkm hv)
    exact ⟨this.text, this.none⟩

/-- An Undo that the textbook cannot do fails. -/
theorem bad_undo {s : St} {p : Page} (hd : Portrays E.logic s.ed p) (hu : p.undo = none) : ¬ ∃ x, cmdUndo E s = .ok x := by
  rintro ⟨x, hx⟩
  unfold Page.undo at hu
  cases hc : p.changes with
  | nil => rw [hc] at hu; cases hu
  | cons c cs =>
    rw [hc] at hu
    have hb : c.bad = true := by
      cases hb : c.bad with
      | true => rfl
      | false => simp [hb] at hu
    have hch := hd.chain
    rw [hc, Chain, if_pos hb] at hch
    have hun : s.undoes = c.slip :: cs.map Change.slip := by
      have := hd.undoes
      rw [hc] at this
      exact this
    have hlen : s.buf.length = p.text.length := by
      have := congrArg List.length hd.line
      rw [List.length_map] at this
      rw [← this]
      show _ = s.line.length
      unfold St.line
      rw [List.length_map]
    unfold cmdUndo at hx
    rw [hun] at hx
    dsimp only at hx
    obtain ⟨b1, h1, -⟩ := bind_ok.mp hx
    rw [if_pos (by show c.put > 0; omega)] at h1
    unfold bufDelete at h1
    rw [if_neg] at h1
    · cases h1
    · rintro ⟨-, hx⟩
      have hx : (c.place : Int) + (c.put : Nat) ≤ (s.buf.length : Int) := hx
      omega

/-- The commands of the editor do not fail when they are called without a screen, but they do on a bad Undo. -/
theorem step_bad {s : St} {p : Page} {kb : Bytes} {rest : List Ev} (hd : Portrays E.logic s.ed p) (hi : s.input = .key kb :: rest)
    (hc : lookupCommand E kb = .undo) (hu : p.undo = none) {x : St × Option RLRes} : ¬ step E s = .ok x := by
  intro hst
  rw [step_key hi, hc] at hst
  unfold execCmd at hst
  obtain ⟨y, hy, -⟩ := bind_ok.mp hst
  have hd' : Portrays E.logic ({ s.emit .await with input := rest } : St).ed p := hd.input rest
  exact bad_undo (s := ({ s.emit .await with input := rest } : St).emit .cursorOff) hd' hu ⟨y, hy⟩

/-- **Every state of a call** is drawn on the page of the textbook after the same keys. -/
theorem reachable_drawn (h : Setting E w D t n clip ks) {s : St} (hr : Reachable E w s) :
    ∃ p r, Turned D (opening D t n clip) ks p r ∧ Portrays E.logic s.ed p ∧ Upcoming s.input r := by
  induction hr with
  | start hs =>
    refine ⟨_, ks, .start, opening_drawn h hs, ?_⟩
    rw [startSt_input hs]
    exact ⟨h.keys, h.noErr, h.full⟩
  | @step s s' hr hst ih =>
    obtain ⟨p, r, ht, hd, hrd⟩ := ih
    cases hi : s.input with
    | nil => rw [step, hi] at hst; cases hst
    | cons ev rest =>
      cases ev with
      | err x => rw [step, hi] at hst; cases hst
      | resize v =>
        rw [hi] at hrd
        have h1 := (step_resize_ed hi hst).2
        refine ⟨p, r, ht, ?_, ?_⟩
        · rw [h1]; exact (hd.input rest).predict
        · have : s'.input = rest := by
            show s'.ed.input = rest
            rw [h1, predict_input]
          rw [this]
          exact ⟨hrd.keys, fun x hx => hrd.quiet x (by simp [hx]), hrd.full⟩
      | key kb =>
        obtain ⟨k, r', rfl, hkm, rfl, c1, c2⟩ := drawn_turn h hr ht hd hrd hi
        obtain ⟨h1, h2⟩ := step_key_ed hi rfl (BuiltinKeys.builtin h.builtin _) hst
        cases htn : turn D p k r' with
        | inl x =>
          obtain ⟨q, ks'⟩ := x
          obtain ⟨l1, l2, l3⟩ := c1 q ks' htn
          refine ⟨q, ks', .turn ht htn, ?_⟩
          rcases (h1 l1).2 with h3 | ⟨-, h3⟩
          · exact ⟨by rw [h3]; exact l2, by show Upcoming s'.ed.input ks'; rw [h3]; exact l3⟩
          · exact ⟨by rw [h3]; exact l2.predict, by show Upcoming s'.ed.input ks'; rw [h3, predict_input]; exact l3⟩
        | inr a =>
          exfalso
          rcases c2 a htn with ⟨-, hc, hu⟩ | ⟨hne, -⟩
          · exact step_bad hd hi hc hu hst
          · have := (h2 hne).1
            cases this

/-- **The result of a call** is that of the textbook. -/
theorem textbook_result (h : Setting E w D t n clip ks) {s : St} {r : RLRes} (hrl : readLine E w = .ok (s, r)) :
    (textbook D t n clip ks).answer = some r := by
  obtain ⟨s0, hr, hst⟩ := readLine_reachable hrl
  obtain ⟨p, rs, ht, hd, hrd⟩ := reachable_drawn h hr
  unfold textbook
  cases hi : s0.input with
  | nil =>
    rw [hi] at hrd
    have : rs = [] := List.map_eq_nil_iff.mp hrd.keys.symm
    subst this
    rw [ht.starves (Nat.le_refl _)]
    rw [step, hi] at hst
    cases hst
    rfl
  | cons ev rest =>
    cases ev with
    | err x => exact absurd (show Ev.err x ∈ s0.input by rw [hi]; simp) (hrd.quiet x)
    | resize v => have := (step_resize_ed hi hst).1; cases this
    | key kb =>
      obtain ⟨k, r', rfl, hkm, rfl, c1, c2⟩ := drawn_turn h hr ht hd hrd hi
      obtain ⟨h1, h2⟩ := step_key_ed hi rfl (BuiltinKeys.builtin h.builtin _) hst
      cases htn : turn D p k r' with
      | inl x =>
        obtain ⟨q, ks'⟩ := x
        have := (h1 (c1 q ks' htn).1).1
        cases this
      | inr a =>
        rw [ht.ends htn (Nat.le_refl _)]
        rcases c2 a htn with ⟨-, hc, hu⟩ | ⟨hne, ha⟩
        · exact absurd hst (step_bad hd hi hc hu)
        · have := (h2 hne).1
          rw [ha, ← this]

/-- **A call that fails** although there is room fails at a turn at which the textbook does. -/
theorem failure_turn {P : Nat → Prop} (h : Setting E w D t n clip ks) (hcm : ∀ q K, lookupCommand E q ≠ .completion K)
    (hm : Modest P E w) {x : Panic} (hrl : readLine E w = .error x) : ∃ s p k r, Reachable E w s ∧ step E s = .error x ∧
      Turned D (opening D t n clip) ks p (k :: r) ∧ Upcoming s.input (k :: r) ∧ turn D p k r = .inr .crashed ∧
      ∃ kb rest, s.input = .key kb :: rest := by
  have hmild := ordinary_mild h.builtin hm hrl
  rcases C01_any_partial h.builtin (by rw [h.cursor]; omega) hrl with ⟨-, h1⟩ | ⟨h1, -⟩ | ⟨k, K, h1, -⟩ |
    ⟨s, kb, rest, u, us, hr, hst, hi, hc, hus, hbad⟩
  · exact absurd h1 hmild.2
  · exact absurd h1 hmild.1
  · exact absurd h1 (hcm k K)
  · obtain ⟨p, rs, ht, hd, hrd⟩ := reachable_drawn h hr
    obtain ⟨k, r', rfl, hkm, rfl, c1, c2⟩ := drawn_turn h hr ht hd hrd hi
    have hlen : s.buf.length = p.text.length := by
      have := congrArg List.length hd.line
      rw [List.length_map] at this
      rw [← this]
      show _ = s.line.length
      unfold St.line
      rw [List.length_map]
    have hun : s.undoes = p.changes.map Change.slip := hd.undoes
    have hch := hd.chain
    have hu : p.undo = none := by
      unfold Page.undo
      cases hcs : p.changes with
      | nil => rw [hcs, hus] at hun; cases hun
      | cons c cs =>
        rw [hcs, hus] at hun
        obtain ⟨rfl, -⟩ := List.cons.inj hun
        rw [hcs, Chain] at hch
        cases hb : c.bad with
        | true => simp [hb]
        | false =>
          exfalso
          rw [hb, if_neg (by simp)] at hch
          apply hbad
          unfold Change.slip
          dsimp only
          omega
    have hv : D.verb k = .undo := by
      have hm := h.means k hkm
      rw [hc] at hm
      generalize D.verb k = v at hm
      cases hm
      rfl
    refine ⟨s, p, k, r', hr, hst, ht, hrd, ?_, _, _, hi⟩
    unfold turn
    rw [hv, hu]
    rfl

theorem textbook_failure {P : Nat → Prop} (h : Setting E w D t n clip ks) (hcm : ∀ q K, lookupCommand E q ≠ .completion K)
    (hm : Modest P E w) {x : Panic} (hrl : readLine E w = .error x) : textbook D t n clip ks = .crashed := by
  obtain ⟨s, p, k, r, -, -, ht, -, h1, -⟩ := failure_turn h hcm hm hrl
  exact ht.ends h1 (Nat.le_refl _)

end Readline
