import Verif.Proof.Textbook
/-!
# What a state of the editor and a page of the textbook have to do with each other, and what the commands do to both
-/
namespace Readline
open Spec

/-- The line before every change comes out of the line after it. -/
def Spec.Chain : List Char → List Change → Prop
  | _, [] => True
  | t, c :: cs =>
    (if c.bad = true then c.place = t.length ∧ c.put = 2 ∧ c.cut ≠ []
     else c.place + c.put ≤ t.length ∧ c.before = t.take c.place ++ c.cut ++ t.drop (c.place + c.put)) ∧
    Chain c.before cs

/-- The entry of the editor for a change. -/
def Spec.Change.slip (c : Change) : Undo := { pos := c.place, del := c.put, text := utf8 c.cut }

/-- The page shows the state. -/
structure Portrays (L : Logic) (e : Ed) (p : Page) : Prop where
  line : e.line = p.text.map (unit L.cfg)
  cursor : e.cursor = p.left.length
  undoes : e.undoes = p.changes.map Change.slip
  pending : e.pending = []
  clip : e.clip = p.clip.map utf8
  histPtr : e.histPtr = p.entry
  drafts : ∀ i : Nat, e.modHist i = (p.drafts i).map utf8
  chain : Chain p.text p.changes

/-- The characters of the state stand alone. -/
abbrev AloneEd (L : Logic) (e : Ed) : Prop := Ed.From (fun r => ¬ Joins L.cfg r) L e

variable {L : Logic} {D : Desk} {e : Ed} {p : Page}

theorem utf8_eq_nil {t : List Char} : utf8 t = [] ↔ t = [] := by
  cases t with
  | nil => simp [utf8]
  | cons c t => rw [utf8_more]; simp [utf8_one_ne]

theorem Portrays.text (h : Portrays L e p) : e.text = utf8 p.text := by
  unfold Ed.text; rw [h.line, lineText_chars]

theorem Portrays.len (h : Portrays L e p) : e.len = p.text.length := by
  unfold Ed.len; rw [h.line, List.length_map]

theorem Portrays.predict (h : Portrays L e p) : Portrays L (Ed.predict L e) p := by
  unfold Ed.predict
  split
  · exact h
  · split <;> exact ⟨h.line, h.cursor, h.undoes, h.pending, h.clip, h.histPtr, h.drafts, h.chain⟩

theorem Portrays.input (h : Portrays L e p) (i : List Ev) : Portrays L { e with input := i } p :=
  ⟨h.line, h.cursor, h.undoes, h.pending, h.clip, h.histPtr, h.drafts, h.chain⟩

theorem Page.length_text (p : Page) : p.text.length = p.left.length + p.right.length := by
  unfold Page.text; rw [List.length_append]

theorem Page.take_text (p : Page) : p.text.take p.left.length = p.left := by
  unfold Page.text; rw [List.take_left]

theorem Page.drop_text (p : Page) : p.text.drop p.left.length = p.right := by
  unfold Page.text; rw [List.drop_left]

/-- The cursor moves. -/
theorem Portrays.move (h : Portrays L e p) {l r : List Char} (ht : l ++ r = p.text) {c : Int} (hc : c = l.length) :
    Portrays L { e with cursor := c } { p with left := l, right := r } :=
  ⟨by rw [h.line]; show _ = (l ++ r).map _; rw [ht], hc, h.undoes, h.pending, h.clip, h.histPtr, h.drafts,
    by show Chain (l ++ r) p.changes; rw [ht]; exact h.chain⟩

theorem Portrays.clips (h : Portrays L e p) (t : List Char) :
    Portrays L { e with clip := some (utf8 t) } { p with clip := some t } :=
  ⟨h.line, h.cursor, h.undoes, h.pending, rfl, h.histPtr, h.drafts, h.chain⟩

/-- A change that is written down. -/
theorem Portrays.change (h : Portrays L e p) {l r : List Char} {c : Change} (hb : c.before = p.text)
    (hc : Chain (l ++ r) (c :: p.changes)) {line : List Moji} (hl : line = (l ++ r).map (unit L.cfg)) {cur : Int}
    (hcur : cur = l.length) {u : Undo} (hu : u = c.slip) :
    Portrays L { e with line := line, cursor := cur, undoes := u :: e.undoes }
      { p with left := l, right := r, changes := c :: p.changes } :=
  ⟨hl, hcur, by show u :: e.undoes = (c :: p.changes).map _; rw [List.map_cons, h.undoes, hu], h.pending, h.clip, h.histPtr, h.drafts, hc⟩

/-- A change of the usual kind. -/
theorem Spec.Chain.cons {t : List Char} {c : Change} {cs : List Change} (hb : c.bad = false) (h1 : c.place + c.put ≤ t.length)
    (h2 : c.before = t.take c.place ++ c.cut ++ t.drop (c.place + c.put)) (h : Chain c.before cs) : Chain t (c :: cs) := by
  refine ⟨?_, h⟩
  rw [if_neg (by simp [hb])]
  exact ⟨h1, h2⟩

/-! ## Writing -/

theorem Page.write_chain (h : Chain p.text p.changes) (t : List Char) : Chain (p.write t).text (p.write t).changes := by
  refine Chain.cons rfl ?_ ?_ h
  · show p.left.length + t.length ≤ (p.left ++ t ++ p.right).length
    simp
  · show p.text = (p.left ++ t ++ p.right).take p.left.length ++ [] ++ (p.left ++ t ++ p.right).drop (p.left.length + t.length)
    have e : (p.left ++ t).length = p.left.length + t.length := List.length_append
    rw [← e, List.drop_left, List.append_assoc p.left, List.take_left, List.append_nil]
    rfl

theorem line_split (h : Portrays L e p) : e.line.take p.left.length = p.left.map (unit L.cfg) ∧
    e.line.drop p.left.length = p.right.map (unit L.cfg) := by
  rw [h.line, ← List.map_take, ← List.map_drop, Page.take_text, Page.drop_text]
  exact ⟨rfl, rfl⟩

/-- Inserting at the cursor. -/
theorem Portrays.insert (h : Portrays L e p) {t : List Char} (ht : AloneIn L.cfg t) :
    Portrays L { e.insert L e.cursor (utf8 t) with cursor := e.cursor + (segs L.cfg (utf8 t)).length } (p.write t) := by
  have hc : e.cursor.toNat = p.left.length := by rw [h.cursor]; rfl
  obtain ⟨h1, h2⟩ := line_split h
  have hl : (segs L.cfg (utf8 t)).length = t.length := by rw [segs_alone ht, List.length_map]
  refine h.change (c := { before := p.text, place := p.left.length, cut := [], put := t.length }) rfl
    (Page.write_chain h.chain t) ?_ ?_ ?_
  · show e.line.take e.cursor.toNat ++ segs L.cfg (utf8 t) ++ e.line.drop e.cursor.toNat = (p.left ++ t ++ p.right).map _
    rw [hc, segs_alone ht, h1, h2, List.map_append, List.map_append]
  · show _ = (((p.left ++ t).length : Nat) : Int)
    rw [hl, h.cursor, List.length_append]; omega
  · rw [hl, h.cursor]; rfl

theorem Portrays.typeTail (h : Portrays L e p) {t : List Char} (ht : AloneIn L.cfg t) :
    Portrays L (Ed.typeTail L e (utf8 t)) (p.write t) := by
  unfold Ed.typeTail
  exact (h.insert ht).predict

theorem keyText_eq (t : List Char) (h : ∀ c : Char, c.toNat < 128 → t ≠ ['\x1b', c]) : keyText t = t := by
  unfold keyText
  split
  · rename_i c
    rw [if_neg (fun hc => h c hc rfl)]
  · rfl

theorem stripAlt_chars (t : List Char) : stripAlt (utf8 t) = utf8 (keyText t) := by
  by_cases h : ∀ c : Char, c.toNat < 128 → t ≠ ['\x1b', c]
  · rw [stripAlt_utf8 h, keyText_eq t h]
  · simp only [Classical.not_forall] at h
    obtain ⟨c, hc, ht⟩ := h
    have ht : t = ['\x1b', c] := Classical.not_not.mp ht
    subst ht
    have e1 : utf8 ['\x1b', c] = 0x1b :: utf8 [c] := by rw [utf8_more]; rfl
    have e2 : utf8 [c] = [UInt8.ofNat c.toNat] := by
      rw [utf8_one]; unfold encodeRune; rw [if_pos hc]
    rw [e1, e2]
    show [UInt8.ofNat c.toNat] = utf8 (if c.toNat < 128 then [c] else ['\x1b', c])
    rw [if_pos hc, e2]

/-- Typing characters that stand alone. -/
theorem Portrays.type (h : Portrays L e p) {t : List Char} (hne : t ≠ []) (ht : AloneIn L.cfg (keyText t)) :
    Portrays L (Ed.type L e (utf8 t)) (p.write (keyText t)) := by
  unfold Ed.type
  dsimp only
  rw [stripAlt_chars]
  have hk : ∃ c r, keyText t = c :: r := by
    cases hk : keyText t with
    | cons c r => exact ⟨c, r, rfl⟩
    | nil =>
      exfalso
      unfold keyText at hk
      split at hk
      · split at hk <;> cases hk
      · exact hne hk
  obtain ⟨c, r, hk⟩ := hk
  have hj : ¬ Joins L.cfg c.toNat := ht c (by rw [hk]; simp)
  obtain ⟨f1, f2⟩ := attaches_utf8 (C := L.cfg) (cs := keyText t) (by rw [hk]; simp) (by
    rintro ⟨x, hx, hjx⟩
    rw [hk] at hx
    simp at hx
    subst hx
    exact hj hjx)
  rw [f1, f2, Bool.false_and, if_neg (by simp), if_neg (by simp), if_neg (by rw [h.pending]; simp)]
  exact h.typeTail ht

/-! ## Taking away -/

theorem chain_mid {A X Y B : List Char} {cs : List Change} (h : Chain (A ++ X ++ B) cs) {c : Change} (hb : c.before = A ++ X ++ B)
    (hp : c.place = A.length) (hx : c.cut = X) (hy : c.put = Y.length) (hbad : c.bad = false) : Chain (A ++ Y ++ B) (c :: cs) := by
  refine Chain.cons hbad ?_ ?_ (by rw [hb]; exact h)
  · rw [hp, hy]; simp
  · have e : (A ++ Y).length = A.length + Y.length := List.length_append
    rw [hb, hp, hx, hy, ← e, List.drop_left, List.append_assoc A Y, List.take_left]

theorem mid_line (f : Char → Moji) (A X B : List Char) :
    ((A ++ X ++ B).map f).take A.length = A.map f ∧ ((A ++ X ++ B).map f).drop (A.length + X.length) = B.map f ∧
      ((((A ++ X ++ B).map f).drop A.length).take X.length) = X.map f := by
  have e : (A ++ X).length = A.length + X.length := List.length_append
  rw [← e]
  refine ⟨?_, ?_, ?_⟩
  · rw [← List.map_take, List.append_assoc, List.take_left]
  · rw [← List.map_drop, List.drop_left]
  · rw [← List.map_drop, ← List.map_take, List.append_assoc, List.drop_left, List.take_left]

/-- A piece is taken away. -/
theorem Portrays.removes (h : Portrays L e p) {A X B l r : List Char} (ht : p.text = A ++ X ++ B) (hX : X ≠ []) (hlr : l ++ r = A ++ B)
    {cur : Int} (hcur : cur = l.length) {c0 : Int} :
    Portrays L { ({ e with cursor := c0 }).delete A.length X.length with cursor := cur }
      { p with left := l, right := r, changes := { before := p.text, place := A.length, cut := X, put := 0 } :: p.changes } := by
  have hn : ¬ ((X.length : Int) ≤ 0 ∨ ({ e with cursor := c0 } : Ed).len < (A.length : Int) + X.length) := by
    rw [show ({ e with cursor := c0 } : Ed).len = e.len from rfl, h.len, ht]
    have := List.length_pos_iff.mpr hX
    have e : (A ++ X ++ B).length = A.length + X.length + B.length := by rw [List.length_append, List.length_append]
    rw [e]
    omega
  obtain ⟨m1, m2, m3⟩ := mid_line (unit L.cfg) A X B
  unfold Ed.delete
  rw [if_neg hn]
  refine h.change (l := l) (r := r) (c := { before := p.text, place := A.length, cut := X, put := 0 }) rfl ?_ ?_ hcur ?_
  · rw [hlr]
    have := chain_mid (A := A) (X := X) (Y := []) (B := B) (ht ▸ h.chain) (c := { before := p.text, place := A.length, cut := X, put := 0 })
      ht rfl rfl rfl rfl
    rwa [List.append_nil] at this
  · show e.line.take A.length ++ e.line.drop (A.length + X.length) = _
    rw [hlr, h.line, ht, m1, m2, List.map_append]
  · show ({ pos := _, del := 0, text := lineText ((e.line.drop A.length).take X.length) } : Undo) = _
    rw [h.line, ht, m3, lineText_chars]
    rfl

theorem cutLeft_pos {n : Nat} (hn : n ≠ 0) : p.cutLeft n =
    { p with left := p.left.take (p.left.length - n)
             changes := { before := p.text, place := p.left.length - n, cut := p.left.drop (p.left.length - n), put := 0 } :: p.changes } := by
  unfold Page.cutLeft; rw [if_neg hn]

/-- Characters on the left are taken away. -/
theorem Portrays.cutLeft (h : Portrays L e p) {n : Nat} (hn : n ≤ p.left.length) {c0 cur pos m : Int}
    (hpos : pos = (p.left.length - n : Nat)) (hm : m = n) (hcur : cur = pos) :
    Portrays L { ({ e with cursor := c0 }).delete pos m with cursor := cur } (p.cutLeft n) := by
  subst hcur hm
  by_cases h0 : n = 0
  · subst h0
    have e1 : ({ e with cursor := c0 } : Ed).delete cur (0 : Nat) = { e with cursor := c0 } := by
      unfold Ed.delete; exact if_pos (.inl (by omega))
    rw [e1]
    unfold Page.cutLeft
    rw [if_pos rfl]
    exact h.move (l := p.left) (r := p.right) rfl (by rw [hpos]; rfl)
  · rw [cutLeft_pos h0]
    have hk : (p.left.take (p.left.length - n)).length = p.left.length - n := by rw [List.length_take]; omega
    have hx : (p.left.drop (p.left.length - n)).length = n := by rw [List.length_drop]; omega
    have := h.removes (A := p.left.take (p.left.length - n)) (X := p.left.drop (p.left.length - n)) (B := p.right)
      (l := p.left.take (p.left.length - n)) (r := p.right) (cur := cur) (c0 := c0)
      (by rw [List.take_append_drop]; rfl) (by intro h; rw [h] at hx; exact h0 hx.symm) rfl (by rw [hk, hpos])
    rw [hk, hx] at this
    rw [hpos] at this ⊢
    exact this

theorem delete_at (x : Ed) (a b : Int) : (x.delete a b).cursor = x.cursor := by
  unfold Ed.delete; split <;> rfl

theorem with_cursor {x : Ed} {c : Int} (h : c = x.cursor) : ({ x with cursor := c } : Ed) = x := by subst h; rfl

theorem Portrays.backspace (h : Portrays L e p) : Portrays L (Ed.backspace L e) p.backspace := by
  unfold Ed.backspace Page.backspace
  by_cases hl : p.left = []
  · rw [if_pos hl, if_neg (by rw [h.cursor, hl]; simp)]
    exact h
  · have := List.length_pos_iff.mpr hl
    rw [if_neg hl, if_pos (by rw [h.cursor]; omega)]
    refine Portrays.predict ?_
    have hc := h.cursor
    have := h.cutLeft (n := 1) (c0 := e.cursor - 1) (cur := e.cursor - 1) (pos := e.cursor - 1) (m := 1) (by omega)
      (by rw [h.cursor]; omega) rfl rfl
    rwa [with_cursor (x := ({ e with cursor := e.cursor - 1 } : Ed).delete (e.cursor - 1) 1) (delete_at _ _ _).symm] at this

theorem Portrays.delete (h : Portrays L e p) : Portrays L (e.delete e.cursor 1) p.delete := by
  unfold Page.delete
  split
  · rename_i hr
    have hd : e.delete e.cursor 1 = e := by
      unfold Ed.delete
      refine if_pos (.inr ?_)
      rw [h.len, h.cursor, Page.length_text, hr]
      simp only [List.length_nil]
      omega
    rw [hd]; exact h
  · rename_i c r hr
    have := h.removes (A := p.left) (X := [c]) (B := r) (l := p.left) (r := r) (cur := e.cursor) (c0 := e.cursor)
      (by unfold Page.text; rw [hr]; simp) (by simp) rfl h.cursor
    rw [← h.cursor] at this
    rwa [with_cursor (x := e.delete e.cursor ([c] : List Char).length) (delete_at _ _ _).symm] at this

theorem Portrays.killRight (h : Portrays L e p) (hs : L.clipSet = fun _ t => some t) : Portrays L (Ed.killLine L e) p.killRight := by
  unfold Ed.killLine Page.killRight
  have hc : e.cursor.toNat = p.left.length := by rw [h.cursor]; rfl
  obtain ⟨h1, h2⟩ := line_split h
  dsimp only
  rw [hc, h1, h2, lineText_chars, hs]
  refine (h.clips p.right).change (l := p.left) (r := []) (c := { before := p.text, place := p.left.length, cut := p.right, put := 0 }) rfl ?_ ?_ h.cursor ?_
  · have := chain_mid (A := p.left) (X := p.right) (Y := []) (B := []) (c := { before := p.text, place := p.left.length, cut := p.right, put := 0 }) (by rw [List.append_nil]; exact h.chain)
      (List.append_nil _).symm rfl rfl rfl rfl
    rwa [List.append_nil] at this
  · rw [List.append_nil]
  · rw [h.cursor]; rfl

theorem Portrays.killAll (h : Portrays L e p) : Portrays L (Ed.killWhole e) p.killAll := by
  unfold Ed.killWhole Page.killAll
  refine h.change (l := []) (r := []) (c := { before := p.text, place := 0, cut := p.text, put := 0 }) rfl ?_ rfl rfl ?_
  · exact chain_mid (A := []) (X := p.text) (Y := []) (B := []) (by simpa using h.chain) (by simp) rfl rfl rfl rfl
  · rw [h.text]; rfl

theorem Portrays.killLeft (h : Portrays L e p) (hs : L.clipSet = fun _ t => some t) :
    Portrays L (Ed.call L .unixLineDiscard e).1 p.killLeft := by
  have hc : e.cursor.toNat = p.left.length := by rw [h.cursor]; rfl
  simp only [Ed.call]
  rw [hc, (line_split h).1, lineText_chars, hs]
  exact ((h.clips p.left).cutLeft (n := p.left.length) (c0 := e.cursor) (cur := 0) (pos := 0) (m := e.cursor) (Nat.le_refl _)
    (by rw [Nat.sub_self]; rfl) h.cursor rfl).predict

/-! ## Words -/

theorem unit_norm (C : Cfg) (c : Char) : (unit C c).norm = unit C c := Moji.norm_norm _

theorem skipSpaces_eq (h : Portrays L e p) (n : Nat) (hn : n ≤ p.left.length) :
    Ed.skipSpaces e.line n = (dropEnd Gap (p.left.take n)).length ∧
      Ed.skipWord e.line n = (dropEnd (fun c => !Gap c) (p.left.take n)).length := by
  have e1 : e.line.take n = (p.left.take n).map (unit L.cfg) := by
    rw [h.line, ← List.map_take]
    unfold Page.text
    rw [List.take_append_of_le_length hn]
  unfold Ed.skipSpaces Ed.skipWord
  rw [e1]
  exact ⟨skipSpaces_chars L.cfg Gap _ (unit_isSpace L.cfg) _,
    skipSpaces_chars L.cfg (fun c => !Gap c) _ (fun c => by rw [unit_isSpace]) _⟩

theorem dropEnd_le (f : Char → Bool) (l : List Char) : (dropEnd f l).length ≤ l.length := by
  rw [dropEnd_take f l]
  exact List.length_take_le' _ _

theorem Portrays.wordLeft (h : Portrays L e p) :
    Portrays L { e with cursor := Ed.skipWord e.line (Ed.skipSpaces e.line e.cursor.toNat) } p.wordLeft := by
  have hc : e.cursor.toNat = p.left.length := by rw [h.cursor]; rfl
  rw [hc, (skipSpaces_eq h _ (Nat.le_refl _)).1, List.take_length, (skipSpaces_eq h _ (dropEnd_le _ _)).2, ← dropEnd_take]
  unfold Page.wordLeft
  refine h.move ?_ rfl
  have e1 : dropEnd (fun c => !Gap c) (dropEnd Gap p.left) = p.left.take (dropEnd (fun c => !Gap c) (dropEnd Gap p.left)).length := by
    conv => lhs; rw [dropEnd_take (fun c => !Gap c), dropEnd_take Gap p.left]
    rw [List.take_take, ← dropEnd_take, Nat.min_eq_left (dropEnd_le _ _)]
  conv => lhs; arg 1; rw [e1]
  rw [← List.append_assoc, List.take_append_drop]
  rfl

theorem Portrays.wordRight (h : Portrays L e p) :
    Portrays L { e with cursor := Ed.forwardPos e.line e.cursor.toNat } p.wordRight := by
  have hc : e.cursor.toNat = p.left.length := by rw [h.cursor]; rfl
  unfold Ed.forwardPos Page.wordRight
  have f1 : ((fun m : Moji => !m.isSpace) ∘ unit L.cfg) = fun c => !Gap c := by funext c; simp [unit_isSpace]
  have f2 : (Moji.isSpace ∘ unit L.cfg) = Gap := by funext c; simp [unit_isSpace]
  rw [hc, (line_split h).2, List.dropWhile_map, List.dropWhile_map, f1, f2, List.length_map]
  have hsuf : (p.right.dropWhile (fun c => !Gap c)).dropWhile Gap <:+ p.right :=
    (List.dropWhile_suffix _).trans (List.dropWhile_suffix _)
  dsimp only
  generalize (p.right.dropWhile (fun c => !Gap c)).dropWhile Gap = r at hsuf ⊢
  obtain ⟨q, hq⟩ := hsuf
  have hl : p.right.length - r.length = q.length := by rw [← hq, List.length_append]; omega
  have ht : p.right.take (p.right.length - r.length) = q := by rw [hl, ← hq, List.take_left]
  refine h.move ?_ ?_
  · rw [ht, List.append_assoc, hq]; rfl
  · rw [ht, h.line, List.length_map, Page.length_text, ← hq]
    simp
    omega

theorem cells_chars (C : Cfg) (l : List Char) :
    (mojis2cells (l.map (unit C))).map (fun c => c.moji.norm) = l.map (unit C) := by
  unfold mojis2cells
  rw [List.map_map, List.map_map]
  apply List.map_congr_left
  intro c _
  exact unit_norm C c

theorem wordStart_bound (marks : List Char) (l : List Char) (i : Nat) (start : Option Nat) (q : Option Char)
    (h : ∀ n, start = some n → n < i) : ∀ n, wordStart marks l i start q = some n → n < i + l.length := by
  induction l generalizing i start q with
  | nil => intro n hn; have := h n hn; simpa using this
  | cons c l ih =>
    intro n hn
    rw [wordStart_cons] at hn
    have : n < i + 1 + l.length := by
      split at hn
      · exact ih _ _ _ (fun m hm => Nat.lt_succ_of_lt (h m hm)) n hn
      · split at hn
        · exact ih _ _ _ (fun m hm => by cases hm) n hn
        · refine ih _ _ _ (fun m hm => ?_) n hn
          cases start with
          | none => cases hm; exact Nat.lt_succ_self _
          | some k => cases hm; exact Nat.lt_succ_of_lt (h _ rfl)
    rw [List.length_cons]; omega

theorem Portrays.killWord (h : Portrays L e p) (hs : Suits D L) : Portrays L (Ed.wordRubout L e) (p.killWord D) := by
  have hc : e.cursor.toNat = p.left.length := by rw [h.cursor]; rfl
  unfold Ed.wordRubout Page.killWord
  rw [hc, (skipSpaces_eq h _ (Nat.le_refl _)).1, List.take_length]
  have hw : Ed.wordTop L e.line ((dropEnd Gap p.left).length : Nat) =
      (((wordStart D.marks (dropEnd Gap p.left) 0 none none).getD (dropEnd Gap p.left).length : Nat) : Int) := by
    unfold Ed.wordTop
    have e1 : e.line.take ((dropEnd Gap p.left).length : Int).toNat = (dropEnd Gap p.left).map (unit L.cfg) := by
      rw [Int.toNat_natCast, h.line, ← List.map_take]
      unfold Page.text
      rw [List.take_append_of_le_length (dropEnd_le _ _), ← dropEnd_take]
    rw [e1, hs.marks]
    have := wordStart_chars (C := L.cfg) hs.noNul (dropEnd Gap p.left) _ (cells_chars L.cfg _) 0 none none (by simp)
    dsimp only
    rw [show wordTopLoop (D.marks.map Char.toNat) (mojis2cells ((dropEnd Gap p.left).map (unit L.cfg))) 0 (-1) 0 = _ from this]
    cases wordStart D.marks (dropEnd Gap p.left) 0 none none with
    | none => rfl
    | some n => exact if_neg (by show ¬ ((n : Int) < 0); omega)
  have hb : (wordStart D.marks (dropEnd Gap p.left) 0 none none).getD (dropEnd Gap p.left).length ≤ p.left.length := by
    have h1 := dropEnd_le Gap p.left
    cases hx : wordStart D.marks (dropEnd Gap p.left) 0 none none with
    | none => exact h1
    | some n =>
      have := wordStart_bound D.marks _ 0 none none (fun _ h => by cases h) n hx
      show n ≤ _
      omega
  dsimp only
  rw [hw]
  generalize (wordStart D.marks (dropEnd Gap p.left) 0 none none).getD (dropEnd Gap p.left).length = n at hb ⊢
  have e2 : lineText ((e.line.take p.left.length).drop ((n : Nat) : Int).toNat) = utf8 (p.left.drop n) := by
    rw [(line_split h).1, Int.toNat_natCast, ← List.map_drop, lineText_chars]
  rw [e2, hs.clipSet]
  exact ((h.clips (p.left.drop n)).cutLeft (n := p.left.length - n) (c0 := e.cursor) (cur := n) (pos := n) (m := e.cursor - n)
    (by show _ ≤ p.left.length; omega) (by show (n : Int) = ((p.left.length - (p.left.length - n) : Nat) : Int); omega)
    (by rw [h.cursor]; omega) rfl).predict

end Readline
