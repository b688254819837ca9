import Verif.Proof.Textbook2
/-!
# Exchange, Undo, pasting and the history
-/
namespace Readline
open Spec

variable {L : Logic} {D : Desk} {e : Ed} {p : Page}

theorem swapAt_mid {α : Type} (A : List α) (a b : α) (B : List α) : swapAt (A ++ a :: b :: B) A.length = A ++ b :: a :: B := by
  unfold swapAt
  have e1 : (A ++ a :: b :: B)[A.length]? = some a := by simp
  have e2 : (A ++ a :: b :: B)[A.length + 1]? = some b := by simp
  rw [e1, e2]
  simp

theorem Portrays.exchange (h : Portrays L e p) : Portrays L (Ed.swap e) p.exchange := by
  have hlen := h.len
  have hcur := h.cursor
  rw [Page.length_text] at hlen
  unfold Ed.swap Page.exchange
  cases hr : p.right with
  | nil =>
    rw [hr] at hlen
    have ht : p.text = p.left := by unfold Page.text; rw [hr, List.append_nil]
    rw [if_pos (by rw [hlen, hcur]; simp)]
    cases hl : p.left.reverse with
    | nil =>
      have : p.left = [] := List.reverse_eq_nil_iff.mp hl
      rw [if_pos (by rw [hcur, this]; decide)]
      exact h
    | cons a l =>
      have hl1 : p.left = l.reverse ++ [a] := by rw [← List.reverse_reverse p.left, hl, List.reverse_cons]
      cases l with
      | nil =>
        rw [if_pos (by rw [hcur, hl1]; show ((1 : Nat) : Int) < 2; decide)]
        exact h
      | cons b l =>
        have hl2 : p.left = l.reverse ++ b :: a :: [] := by rw [hl1, List.reverse_cons]; simp
        have hn : p.left.length = l.length + 2 := by rw [hl2]; simp
        rw [if_neg (by rw [hcur, hn]; omega)]
        have hi : (e.cursor - 2).toNat = (l.reverse.map (unit L.cfg)).length := by
          rw [hcur, hn, List.length_map, List.length_reverse]; omega
        have hline : e.line = l.reverse.map (unit L.cfg) ++ unit L.cfg b :: unit L.cfg a :: [] := by
          rw [h.line, ht, hl2, List.map_append]; rfl
        rw [hi, hline, swapAt_mid, List.drop_left]
        have hcut : lineText (unit L.cfg b :: unit L.cfg a :: []) = utf8 [b, a] := lineText_chars L.cfg [b, a]
        have hlen2 : ((l.reverse ++ [a, b]) ++ [] : List Char).length = p.left.length := by rw [hl2]; simp
        refine h.change (l := l.reverse ++ [a, b]) (r := [])
          (c := { before := p.text, place := p.left.length, cut := [b, a], put := 2, bad := true }) rfl ?_ ?_ ?_ ?_
        · refine ⟨?_, h.chain⟩
          rw [if_pos rfl]
          exact ⟨hlen2.symm, rfl, by simp⟩
        · rw [List.append_nil, List.map_append]; rfl
        · rw [hcur, ← hlen2, List.append_nil]
        · rw [hcut, hcur]; rfl
  | cons b r =>
    rw [if_neg (by rw [hlen, hcur, hr, List.length_cons]; omega)]
    cases hl : p.left.reverse with
    | nil =>
      have : p.left = [] := List.reverse_eq_nil_iff.mp hl
      rw [if_pos (by rw [hcur, this]; decide)]
      exact h
    | cons a l =>
      have hl1 : p.left = l.reverse ++ [a] := by rw [← List.reverse_reverse p.left, hl, List.reverse_cons]
      have hn : p.left.length = l.length + 1 := by rw [hl1]; simp
      have ht : p.text = l.reverse ++ [a, b] ++ r := by unfold Page.text; rw [hr, hl1]; simp
      rw [if_neg (by rw [hcur, hn]; omega)]
      have hi : (e.cursor - 1).toNat = (l.reverse.map (unit L.cfg)).length := by
        rw [hcur, hn, List.length_map, List.length_reverse]; omega
      have hline : e.line = l.reverse.map (unit L.cfg) ++ unit L.cfg a :: unit L.cfg b :: r.map (unit L.cfg) := by
        rw [h.line, ht, List.map_append, List.map_append]; simp
      rw [hi, hline, swapAt_mid, List.drop_left]
      have hcut : lineText ((unit L.cfg a :: unit L.cfg b :: r.map (unit L.cfg)).take 2) = utf8 [a, b] := lineText_chars L.cfg [a, b]
      have key := h.change (l := l.reverse ++ [b, a]) (r := r)
          (c := { before := p.text, place := p.left.length - 1, cut := [a, b], put := 2 }) rfl
          (chain_mid (A := l.reverse) (X := [a, b]) (Y := [b, a]) (B := r) (ht ▸ h.chain) ht (by rw [hn, List.length_reverse]; rfl) rfl rfl rfl)
          (line := l.reverse.map (unit L.cfg) ++ unit L.cfg b :: unit L.cfg a :: r.map (unit L.cfg))
          (by rw [List.map_append, List.map_append]; simp) (cur := e.cursor + 1) (by rw [hcur, hn]; simp; omega)
          (u := { pos := e.cursor - 1, del := 2, text := lineText ((unit L.cfg a :: unit L.cfg b :: r.map (unit L.cfg)).take 2) })
          (by rw [hcut, hcur, hn]; show Undo.mk _ _ _ = Undo.mk _ _ _; congr 1; show ((l.length + 1 : Nat) : Int) - 1 = ((l.length + 1 - 1 : Nat) : Int); omega)
      cases l with
      | nil => exact key
      | cons c l => exact key

/-! ## Undo -/

theorem Portrays.undo (h : Portrays L e p) (ha : AloneEd L e) {q : Page} (hq : p.undo = some q) : Portrays L (Ed.undo L e) q := by
  unfold Page.undo at hq
  unfold Ed.undo
  rw [h.undoes]
  cases hc : p.changes with
  | nil =>
    rw [hc] at hq
    cases hq
    exact h
  | cons c rest =>
    rw [hc] at hq
    dsimp only at hq
    have hch := h.chain
    rw [hc] at hch
    obtain ⟨h1, h2⟩ := hch
    by_cases hb : c.bad = true
    · rw [if_pos hb] at hq; cases hq
    rw [if_neg hb] at hq h1
    cases hq
    obtain ⟨h1, h3⟩ := h1
    have hcut : AloneIn L.cfg c.cut := over_alone.mp (ha.undoes c.slip (by rw [h.undoes, hc]; simp))
    have hseg : segs L.cfg c.slip.text = c.cut.map (unit L.cfg) := segs_alone hcut
    rw [List.map_cons]
    dsimp only
    have hpos : c.slip.pos.toNat = c.place := rfl
    have hdel : c.slip.del = c.put := rfl
    rw [hpos, hdel, hseg, h.line]
    have hl : (if c.put > 0 then (p.text.map (unit L.cfg)).take c.place ++ (p.text.map (unit L.cfg)).drop (c.place + c.put)
        else p.text.map (unit L.cfg)) = (p.text.take c.place ++ p.text.drop (c.place + c.put)).map (unit L.cfg) := by
      rw [List.map_append, List.map_take, List.map_drop]
      split
      · rfl
      · rename_i h0
        have h0 : c.put = 0 := by omega
        rw [h0, Nat.add_zero, List.take_append_drop]
    rw [hl]
    have hpl : (p.text.take c.place).length = c.place := by rw [List.length_take]; omega
    have hbl : c.place + c.cut.length ≤ c.before.length := by rw [h3]; simp; omega
    refine Portrays.predict ?_
    have fin : ∀ e' : Ed, e'.line = c.before.map (unit L.cfg) → e'.cursor = c.place + c.cut.length → e'.undoes = rest.map Change.slip →
        e'.pending = e.pending → e'.clip = e.clip → e'.histPtr = e.histPtr → e'.modHist = e.modHist →
        Portrays L e' { p with left := c.before.take (c.place + c.cut.length), right := c.before.drop (c.place + c.cut.length), changes := rest } := by
      intro e' g1 g2 g3 g4 g5 g6 g7
      have ht : ∀ n : Nat, ({ p with left := c.before.take n, right := c.before.drop n, changes := rest } : Page).text = c.before :=
        fun n => List.take_append_drop n c.before
      refine ⟨?_, ?_, g3, g4.trans h.pending, g5.trans h.clip, g6.trans h.histPtr, by rw [g7]; exact h.drafts, ?_⟩
      · rw [ht]; exact g1
      · rw [g2]
        show _ = (((c.before.take (c.place + c.cut.length)).length : Nat) : Int)
        rw [List.length_take, Nat.min_eq_left hbl]; omega
      · rw [ht]; exact h2
    by_cases ht : c.cut = []
    · rw [if_neg (by show ¬ utf8 c.cut ≠ []; rw [ht]; simp [utf8])]
      refine fin _ ?_ ?_ rfl rfl rfl rfl rfl
      · show (p.text.take c.place ++ p.text.drop (c.place + c.put)).map _ = _
        rw [h3, ht, List.append_nil]
      · show (c.place : Int) = _
        rw [ht]; simp
    · rw [if_pos (show c.slip.text ≠ [] from fun hx => ht (utf8_eq_nil.mp hx))]
      refine fin _ ?_ ?_ rfl rfl rfl rfl rfl
      · show ((p.text.take c.place ++ p.text.drop (c.place + c.put)).map (unit L.cfg)).take c.place ++ c.cut.map (unit L.cfg) ++
          ((p.text.take c.place ++ p.text.drop (c.place + c.put)).map (unit L.cfg)).drop c.place = _
        rw [← List.map_take, ← List.map_drop, List.take_append_of_le_length (by omega), List.drop_append_of_le_length (by omega), h3]
        have a1 : (p.text.take c.place).take c.place = p.text.take c.place := by rw [List.take_take, Nat.min_self]
        have a2 : (p.text.take c.place).drop c.place = [] := List.drop_eq_nil_of_le (by omega)
        rw [a1, a2, List.nil_append, List.map_append, List.map_append]
      · show (c.place : Int) + _ = _
        rw [List.length_map]

/-! ## Pasting -/

theorem paste_text (p : Page) (t : List Char) : (p.paste t).text = p.left ++ t ++ p.right := by
  unfold Page.paste
  split
  · split <;> rfl
  · rfl

theorem Portrays.replace (h : Portrays L e p) {t : List Char} (ht : AloneIn L.cfg t) :
    Portrays L (Ed.replace L e e.cursor (utf8 t)) (p.paste t) := by
  have hd : e.delete e.cursor (e.cursor - e.cursor) = e := by
    unfold Ed.delete; exact if_pos (.inl (by omega))
  have hi := h.insert ht
  unfold Ed.replace
  rw [hd]
  dsimp only
  refine Portrays.predict ?_
  have hu : (e.insert L e.cursor (utf8 t)).undoes = (p.write t).changes.map Change.slip := hi.undoes
  have go : ∀ q : Page, q.left = p.left ++ t → q.right = p.right → Ed.joinUndoes ((p.write t).changes.map Change.slip) = q.changes.map Change.slip →
      q.clip = p.clip → q.entry = p.entry → q.drafts = p.drafts → Chain (p.write t).text q.changes →
      Portrays L { e.insert L e.cursor (utf8 t) with
          cursor := e.cursor + (segs L.cfg (utf8 t)).length
          undoes := Ed.joinUndoes (e.insert L e.cursor (utf8 t)).undoes } q := by
    intro q g1 g2 g3 g4 g5 g6 g7
    have htx : q.text = (p.write t).text := by unfold Page.text; rw [g1, g2]; rfl
    refine ⟨?_, ?_, ?_, hi.pending, ?_, ?_, ?_, ?_⟩
    · rw [htx]; exact hi.line
    · rw [g1]; exact hi.cursor
    · rw [← g3, ← hu]
    · rw [g4]; exact hi.clip
    · rw [g5]; exact hi.histPtr
    · rw [g6]; exact hi.drafts
    · rw [htx]; exact g7
  have hch := h.chain
  unfold Page.paste
  cases hc : p.changes with
  | nil =>
    refine go _ rfl rfl ?_ rfl rfl rfl hi.chain
    show Ed.joinUndoes ((_ :: p.changes).map Change.slip) = (_ :: p.changes).map Change.slip
    rw [hc]; rfl
  | cons c rest =>
    rw [hc] at hch
    have hju : Ed.joinUndoes ((p.write t).changes.map Change.slip) =
        if c.place = p.left.length ∧ (c.put = 0 ∨ t = []) then ({ c with put := c.put + t.length } :: rest).map Change.slip
        else (p.write t).changes.map Change.slip := by
      show Ed.joinUndoes (({ before := p.text, place := p.left.length, cut := [], put := t.length } :: p.changes).map Change.slip) =
        if _ then _ else ({ before := p.text, place := p.left.length, cut := [], put := t.length } :: p.changes : List Change).map Change.slip
      rw [hc]
      simp only [List.map_cons, Ed.joinUndoes]
      have e1 : (Change.slip c).pos = c.place := rfl
      have e2 : (Change.slip { before := p.text, place := p.left.length, cut := [], put := t.length }).pos = p.left.length := rfl
      have e3 : (Change.slip { before := p.text, place := p.left.length, cut := [], put := t.length }).text = [] := by simp [Change.slip, utf8]
      have e4 : (Change.slip { before := p.text, place := p.left.length, cut := [], put := t.length }).del = t.length := rfl
      have e5 : (Change.slip c).del = c.put := rfl
      rw [e1, e2, e3, e4, e5]
      by_cases hp : c.place = p.left.length
      · rw [if_neg (by rw [hp]; simp), if_neg (by simp)]
        by_cases h0 : c.put = 0
        · rw [if_neg (by rw [h0]; simp), if_pos h0, if_pos (show _ ∧ (_ ∨ _) from ⟨hp, .inl h0⟩), h0, Nat.zero_add]
          have : (if (Change.slip c).text = [] then [] else (Change.slip c).text) = (Change.slip c).text := by
            split
            · rename_i hx; rw [hx]
            · rfl
          rw [this]
          rfl
        · by_cases hte : t = []
          · rw [if_neg (by rw [hte]; simp), if_neg h0, if_pos (show _ ∧ (_ ∨ _) from ⟨hp, .inr hte⟩), hte]
            have : (if (Change.slip c).text = [] then [] else (Change.slip c).text) = (Change.slip c).text := by
              split
              · rename_i hx; rw [hx]
              · rfl
            rw [this]
            rfl
          · rw [if_pos ⟨h0, by simp [hte]⟩, if_neg (by rintro ⟨_, h | h⟩; exact h0 h; exact hte h)]
      · rw [if_pos (by intro hx; exact hp (by omega)), if_neg (fun hx => hp hx.1)]
    by_cases hj : c.place = p.left.length ∧ (c.put = 0 ∨ t = [])
    · rw [if_pos hj] at hju
      dsimp only
      rw [if_pos hj]
      refine go _ rfl rfl hju rfl rfl rfl ?_
      obtain ⟨h1, h2⟩ := hch
      refine ⟨?_, h2⟩
      show if c.bad = true then c.place = (p.left ++ t ++ p.right).length ∧ c.put + t.length = 2 ∧ c.cut ≠ [] else
        c.place + (c.put + t.length) ≤ (p.left ++ t ++ p.right).length ∧
          c.before = (p.left ++ t ++ p.right).take c.place ++ c.cut ++ (p.left ++ t ++ p.right).drop (c.place + (c.put + t.length))
      rcases hj.2 with h0 | hte
      · by_cases hb : c.bad = true
        · rw [if_pos hb] at h1; omega
        · rw [if_neg hb] at h1 ⊢
          obtain ⟨h3, h4⟩ := h1
          refine ⟨by rw [hj.1, h0]; simp, ?_⟩
          rw [h4, h0, hj.1, Nat.add_zero, Nat.zero_add, Page.take_text, Page.drop_text, ← List.length_append, List.drop_left,
            List.append_assoc p.left t, List.take_left]
      · subst hte
        simp only [List.append_nil, List.length_nil, Nat.add_zero]
        exact h1
    · rw [if_neg hj] at hju
      dsimp only
      rw [if_neg hj]
      exact go _ rfl rfl hju rfl rfl rfl hi.chain

/-! ## The history -/

theorem Portrays.save (h : Portrays L e p) (hs : Suits D L) {here : Nat} (hh : e.histPtr = here) (to : Nat) :
    Portrays L { Ed.saveHist L e with histPtr := to }
      { p with entry := to
               drafts := if D.history[here]? = some p.text then p.drafts
                 else fun i => if i = here then some p.text else p.drafts i } := by
  have hc : (e.histPtr < Ed.histLen L ∧ Ed.histAt L e.histPtr = e.text) ↔ D.history[here]? = some p.text := by
    unfold Ed.histLen Ed.histAt
    rw [hh, h.text, hs.history, Int.toNat_natCast, List.length_map, List.getD_eq_getElem?_getD, List.getElem?_map]
    constructor
    · rintro ⟨h1, h2⟩
      have h1 : here < D.history.length := by omega
      rw [List.getElem?_eq_getElem h1] at h2 ⊢
      exact congrArg some (utf8_injective h2)
    · intro h2
      have h1 : here < D.history.length := by
        rcases Nat.lt_or_ge here D.history.length with h | h
        · exact h
        · rw [List.getElem?_eq_none h] at h2; cases h2
      rw [h2]
      exact ⟨by omega, rfl⟩
  unfold Ed.saveHist
  by_cases hx : D.history[here]? = some p.text
  · rw [if_pos (hc.mpr hx), if_pos hx]
    exact ⟨h.line, h.cursor, h.undoes, h.pending, h.clip, rfl, h.drafts, h.chain⟩
  · rw [if_neg (fun y => hx (hc.mp y)), if_neg hx]
    refine ⟨h.line, h.cursor, h.undoes, h.pending, h.clip, rfl, fun i => ?_, h.chain⟩
    show (if (i : Int) = e.histPtr then some e.text else e.modHist i) = Option.map utf8 (if i = here then some p.text else p.drafts i)
    rw [hh]
    by_cases hi : i = here
    · rw [if_pos (by rw [hi]), if_pos hi, h.text]; rfl
    · rw [if_neg (by omega), if_neg hi, h.drafts]

theorem Portrays.show (h : Portrays L e p) (hs : Suits D L) (ht : AloneIn L.cfg ((p.drafts p.entry).getD (D.history.getD p.entry [])))
    {t : List Char} (hte : (p.drafts p.entry).getD (D.history.getD p.entry []) = t) :
    Portrays L (Ed.showHist L e) (if t = [] then p.killAll else p.killAll.write t) := by
  rw [hte] at ht
  have hk := h.killAll
  have hg : Ed.getHist L (Ed.killWhole e) = utf8 t := by
    unfold Ed.getHist
    rw [show (Ed.killWhole e).modHist = e.modHist from rfl, show (Ed.killWhole e).histPtr = e.histPtr from rfl, h.histPtr, h.drafts,
      ← hte]
    cases hd : p.drafts p.entry with
    | some x => rfl
    | none =>
      show (if (p.entry : Int) < 0 ∨ (p.entry : Int) ≥ Ed.histLen L then [] else Ed.histAt L p.entry) = utf8 (D.history.getD p.entry [])
      unfold Ed.histLen Ed.histAt
      rw [hs.history, List.length_map, Int.toNat_natCast]
      rcases Nat.lt_or_ge p.entry D.history.length with hlt | hge
      · rw [if_neg (by omega), List.getD_eq_getElem?_getD, List.getElem?_map, List.getD_eq_getElem?_getD, List.getElem?_eq_getElem hlt]
        rfl
      · rw [if_pos (.inr (by omega)), List.getD_eq_getElem?_getD, List.getElem?_eq_none hge]
        simp [utf8]
  unfold Ed.showHist
  dsimp only
  rw [hg]
  by_cases h0 : t = []
  · rw [if_pos h0, if_neg (by rw [h0]; simp [utf8])]
    exact hk
  · rw [if_neg h0, if_pos (fun hx => h0 (utf8_eq_nil.mp hx))]
    have := hk.insert ht
    have e1 : ((Ed.killWhole e).insert L 0 (utf8 t)).len = (Ed.killWhole e).cursor + (segs L.cfg (utf8 t)).length := by
      show ((([] : List Moji).take 0 ++ segs L.cfg (utf8 t) ++ ([] : List Moji).drop 0).length : Int) = 0 + _
      simp
    rw [e1]
    exact this

theorem Portrays.browse (h : Portrays L e p) (ha : AloneEd L e) (hs : Suits D L) {here : Nat} (to : Nat)
    (hh : e.histPtr = here) : Portrays L (Ed.showHist L { Ed.saveHist L e with histPtr := to }) (p.browse D here to) := by
  have h1 := h.save hs hh to
  refine h1.show hs ?_ rfl
  have htext : AloneIn L.cfg p.text := over_alone.mp (h.text ▸ ha.text)
  have hdraft : ∀ i t, p.drafts i = some t → AloneIn L.cfg t := fun i t ht =>
    over_alone.mp (ha.modHist (i : Int) (utf8 t) (by rw [h.drafts, ht]; rfl))
  have hhist : AloneIn L.cfg (D.history.getD to []) := by
    rw [List.getD_eq_getElem?_getD]
    cases hx : D.history[to]? with
    | none => intro c hc; cases hc
    | some y => exact hs.alone y (List.mem_of_getElem? hx)
  have hall : ∀ o : Option (List Char), (∀ t, o = some t → AloneIn L.cfg t) → AloneIn L.cfg (o.getD (D.history.getD to [])) := by
    intro o ho
    cases o with
    | none => exact hhist
    | some t => exact ho t rfl
  apply hall
  intro t ht
  dsimp only at ht
  split at ht
  · exact hdraft _ _ ht
  · dsimp only at ht
    split at ht
    · cases ht; exact htext
    · exact hdraft _ _ ht

theorem Portrays.older (h : Portrays L e p) (ha : AloneEd L e) (hs : Suits D L) : Portrays L (Ed.prevHist L e) (p.older D) := by
  have hl : Ed.histLen L = D.history.length := by unfold Ed.histLen; rw [hs.history, List.length_map]
  unfold Ed.prevHist Page.older
  rw [hl, h.histPtr, hs.cycling]
  by_cases h0 : D.history = []
  · rw [if_pos h0, if_pos (by rw [h0]; simp)]; exact h
  · have := List.length_pos_iff.mpr h0
    rw [if_neg h0, if_neg (by omega)]
    by_cases hp : p.entry = 0
    · rw [if_pos hp]
      by_cases hc : D.cycling = true
      · rw [if_pos hc, if_neg (by rw [hc]; simp)]
        dsimp only
        rw [if_pos (by omega)]
        have e1 : (Ed.saveHist L { e with histPtr := (D.history.length : Int) + 1 }).histPtr - 1 = ((D.history.length : Nat) : Int) := by
          have : ∀ x : Ed, (Ed.saveHist L x).histPtr = x.histPtr := by intro x; unfold Ed.saveHist; split <;> rfl
          rw [this]
          show (D.history.length : Int) + 1 - 1 = _
          omega
        rw [e1]
        have h' : Portrays L { e with histPtr := (D.history.length : Int) + 1 } { p with entry := D.history.length + 1 } :=
          ⟨h.line, h.cursor, h.undoes, h.pending, h.clip, by simp, h.drafts, h.chain⟩
        exact h'.browse ⟨ha.built, ha.line, ha.suffix, ha.undoes, ha.pending, ha.whole, ha.modHist, ha.clip⟩ hs
          (here := D.history.length + 1) D.history.length (by simp)
      · rw [if_neg hc, if_pos ⟨by omega, by simpa using hc⟩]; exact h
    · rw [if_neg hp, if_neg (by omega)]
      dsimp only
      rw [if_neg (by omega)]
      have e1 : (Ed.saveHist L e).histPtr - 1 = ((p.entry - 1 : Nat) : Int) := by
        have : ∀ x : Ed, (Ed.saveHist L x).histPtr = x.histPtr := by intro x; unfold Ed.saveHist; split <;> rfl
        rw [this, h.histPtr]; omega
      rw [e1]
      exact h.browse ha hs _ h.histPtr

theorem Portrays.newer (h : Portrays L e p) (ha : AloneEd L e) (hs : Suits D L) : Portrays L (Ed.nextHist L e) (p.newer D) := by
  have hl : Ed.histLen L = D.history.length := by unfold Ed.histLen; rw [hs.history, List.length_map]
  unfold Ed.nextHist Page.newer
  rw [hl, h.histPtr]
  by_cases h0 : D.history = []
  · rw [if_pos (by rw [h0]; simp), if_pos (.inl h0)]; exact h
  · have := List.length_pos_iff.mpr h0
    rw [if_neg (by omega)]
    by_cases hp : D.history.length ≤ p.entry
    · rw [if_pos (by omega), if_pos (.inr hp)]; exact h
    · rw [if_neg (by omega), if_neg (by rintro (h | h); exact h0 h; exact hp h)]
      dsimp only
      have e1 : (Ed.saveHist L e).histPtr + 1 = ((p.entry + 1 : Nat) : Int) := by
        have : ∀ x : Ed, (Ed.saveHist L x).histPtr = x.histPtr := by intro x; unfold Ed.saveHist; split <;> rfl
        rw [this, h.histPtr]; omega
      rw [e1]
      exact h.browse ha hs _ h.histPtr

end Readline
